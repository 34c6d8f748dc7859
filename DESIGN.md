# DESIGN

Formal model of malachi-iot/estdlib (pinned source in /repo) in Lean 4.33.0, under `lean/Verif/`.

## How the model is organised

* `Verif/<Area>/Model.lean` - the code, function by function, each definition citing file and lines.
* `Verif/<Area>/Spec.lean` (or a `Spec` section) - the small independent specification.
* `Verif/<Area>/Lemmas.lean` - helper lemmas.
* `Verif/<Area>/Props.lean` - the property theorems, each with a concrete `example` meeting its hypotheses.

Small areas keep all four as clearly marked sections of one file.

## Conventions

* Undefined behaviour (out-of-bounds access, use of a dead object, dereference of null) is a distinct
  outcome: a modelled operation returns `Option`, with `none` meaning "undefined behaviour", unless said otherwise.
* Fixed-width integers are modelled by `BitVec` or by `Nat`/`Int` with explicit range hypotheses or wrap, whenever width matters.
* Where the code violates the property as stated, the negation is proved with a concrete witness and the
  provable fragment gets a theorem with suffix `_partial`. The disagreements are listed at the end of this file.

## Trusted base

* Lean 4.33.0's kernel, and the axioms `propext`, `Classical.choice`, `Quot.sound` (no others; checked with `#print axioms`).
* The transcription of the C++ text into the Lean definitions (by reading; the code is not built or run).
* The C++ semantics assumptions stated per definition (two's complement, 8-bit bytes, LP64 where widths matter).

## Plan per property

* **C01 find_if family returns the first match**: Model ranges as lists of cells and positions as indices; transcribe the loops; spec is `List.findIdx`-free: ∀ earlier index not p, and p at the result. Induction on the range.
* **C02 equal and mismatch decide range equality**: Same range model; spec is `take`/`get?` equality. Induction.
* **C03 search finds the first occurrence of a subsequence**: Nested loop of search as two structural recursions; spec: occurrence predicate `∃ pre post`, minimal. Induction.
* **C04 copy, copy_backward, fill and reverse have their exact effects**: A memory is `List α` and each loop writes `set i v`, with out of range = UB (`none`); spec gives every cell of the final memory. Induction on count with a loop invariant.
* **C05 min_element, max_element and clamp pick the extremum**: Generic comparator `lt : α → α → Bool` with strict-weak-order hypotheses; induction.
* **C06 k-ary heap operations establish and preserve the heap property**: Array as `List α`/function with k-ary parent/child index maths from heap.h; restore_up/restore_down with fuel-free well-founded recursion; spec is `∀ i, ¬ lt parent child` and permutation. Loop invariants 'heap except at i'.
* **C07 priority_queue pops in order**: State = list prefix of the container; op sequences; invariant = heap + multiset equality; induction on history.
* **C08 deque and queue behave as a bounded double-ended sequence**: State = buffer list, front, back, empty flag exactly as in queue.h; abstraction function to a list; simulation for each op; induction on histories.
* **C09 deque iteration visits exactly the contents in order**: begin/end iterator equality as written; prove for not-full states, negation for full.
* **C10 fixed-capacity vector and string edits agree with sequence edits**: State = buffer of capacity cells plus size; each operation transcribed with explicit memmove loops; refinement to list operations.
* **C11 Overfull requests are refused without damage**: Same model; UB outcome for writes past the buffer; the code's BOUNDS_CHECK=0 paths are modelled as they are.
* **C12 String search agrees with the first/last occurrence**: Loops transcribed over list buffers with UB for reads beyond the buffer; spec is first/last occurrence.
* **C13 starts_with and ends_with decide prefix and suffix**: Loops transcribed with the size_t wrap-around of `count--`; spec is `List.IsPrefix`/`IsSuffix`.
* **C14 String equality and compare are lexicographic**: Loops transcribed; spec is lexicographic order on lists.
* **C15 string_view and span slicing stay inside the viewed range**: View = (offset,length) into a base buffer; spec is list drop/take.
* **C16 to_chars writes the canonical numeral**: Digits produced right-to-left into a buffer (list with set), values are Int with a width parameter; spec is positional value of the numeral (`ofDigits`) and canonical form.
* **C17 from_chars parses exactly the longest numeral prefix**: State machine over the remaining text with overflow check from raise_and_add; spec by longest digit prefix and its value.
* **C18 to_chars/from_chars round trip**: Composition of the two models.
* **C19 Digit classification in each base**: cbase functions over Nat characters; finite tables lifted by lemma or omega.
* **C20 Streaming num_get extracts the integer value incrementally**: State machine `step : State → Char → State`; chunking = fold over append; induction on text.
* **C21 unordered_map lookups reflect the inserted pairs**: State = list of slots (key, raw value bits); hash, null key, mark layout and the memory on either side of the array are parameters (`Env`). Each probing, scanning and iterating loop is transcribed with reads outside the array an explicit outcome. Spec = finite map (`Spec.Step`), refinement by an invariant over histories.
* **C22 unordered_map erase removes exactly one key**: Same model with the sparse marks `erase` leaves. `CleanRun` (Spec.lean) says no insertion overwrites a mark its bucket still needs; refinement on clean histories, negations for the rest.
* **C23 unordered_set membership reflects inserts and erases**: Same slots with the set's compacting erase; refinement on histories that erase the last element of a bucket, negations for the rest.
* **C24 forward_list operations agree with list operations**: Heap = finite map node → next; abstraction to list via reachability predicate; each op proved to preserve `IsList`.
* **C25 forward_list::remove_if removes every match**: Loop transcribed over node sequence; negation for adjacent matches, partial for lists without adjacent matches.
* **C26 Doubly linked list links stay mutually consistent**: Heap with next/prev maps; invariant = doubly linked segment.
* **C27 Memory pool never hands out the same block twice**: Free list as next map over block indices; invariant: free list and used set partition the blocks; histories.
* **C28 Pool handles convert back to the same block**: int8_t narrowing with BitVec 8; proved for at most 128 blocks, negation above.
* **C29 shared_ptr deletes exactly once, when the last owner goes**: Control block (count, active flag, deleted flag) and owner set; invariant count = owners; histories.
* **C30 linked_ref ring destroys the object exactly once**: Ring as next map on references; invariant: single cycle; histories.
* **C31 bipbuffer is a byte FIFO**: State exactly the C struct (size, a_start, a_end, b_end, b_inuse, data); abstraction = bytes of A then B; refinement to a byte list.
* **C32 optional holds the last value and manages its lifetime**: Lifetime trace model: storage cell alive/dead, construct on alive or destroy on dead = UB; histories.
* **C33 expected holds exactly one of value and error**: Same lifetime model with two alternatives.
* **C34 variant holds exactly the alternative index() names**: Same lifetime model with index.
* **C35 Output stream buffers deliver all accepted characters in order**: Sink state + buffer; ops return counts; invariant delivered ++ buffered = accepted.
* **C36 Input stream buffers deliver the source characters in order**: Position over source list; each get op; refinement to list cursor.
* **C37 istream getline/read/get/ignore obey their limits**: Loops over source list; destination buffer with UB outside.
* **C38 Formatted integer output pads to the field width**: Field layout function and 6-bit fill field as BitVec; full domain lemma.
* **C39 ios state bits report accurately**: Flags as BitVec; algebraic proofs by bit extensionality.
* **C40 ratio arithmetic is exact and reduced**: gcd/lcm templates as recursion on Int; spec `Int.gcd`, rational equality by cross multiplication.
* **C41 duration conversion and comparison are exact through the common type**: Counts as Int (no overflow assumed, stated); conversions use truncated division; spec over ℚ-like cross products.
* **C42 hh_mm_ss splits a duration exactly**: uint8_t narrowing modelled with mod 256; partial where it fits, negation otherwise.
* **C43 Calendar validity rules match the Gregorian calendar**: Decision logic; compare with the Gregorian rule; negations where the code departs.
* **C44 FNV hashes are the documented functions and depend only on contents**: BitVec 64/32 arithmetic; ring identity on BitVec; fold over lists.
* **C45 Name chooser resolves a streamed name**: State machine over list of names; partial/negation.
* **C46 promoted_type can hold both operands**: types as (bits, signed) pairs of any width; containment of value ranges; exact characterisation of when it holds.
* **C47 gcount reports the characters the last unformatted input took**: the count is a field of the stream model; exact value after each operation, compared with the length consumed.
* **C48 endl and unitbuf leave nothing pending**: for any predicate a sink's `sync` establishes, it holds after `endl` and after unit-buffered writes; the buffered streambuf's `sync` empties its buffer.
* **C49 Unordered containers compare equal exactly when they hold the same elements**: `operator==` transcribed over the iteration model of C21; exact characterisation, negations for order and values.
* **C50 to_string yields the decimal numeral**: composition of the C16 model with the buffer sizes of C51; uninitialised storage is a universally quantified list; specification is the numeral of C16 and a C-string predicate.
* **C51 numeric_limits text lengths are right**: the tables transcribed; compared with the numerals of C16 for every value by digit-count bounds.
* **C52 Character categories**: decision logic transcribed over 8-bit masks; categories specified as code intervals; exact characterisation of what is accepted, soundness for all masks, negations for lower, alpha, punct.
* **C53 char_traits find, length and compare**: loops transcribed over the memory model with reads outside explicit; induction on the count.
* **C54 time_point arithmetic is exact**: the conversions of C41 underneath; history theorem by induction over the operation list; negation for finer durations, which are silently truncated.
* **C55 Unit conversions preserve the quantity**: objects as root value plus type; convert_from from the scaling of C41; exact theorem for assignment and cross-period construction; exact characterisation of the error of same-period construction and of the operators in terms of the offset.
* **C56 get_from_percent interpolates**: the integer conversions transcribed with wraparound and undefined overflow; equality with exact interpolation by modular arithmetic; endpoints and monotonicity proved of the interpolation; negations for descending ranges and offset units.
* **C57 The linked-list memory pool hands out each item to one owner at a time**: storage as a list of link words, the free list as a chain through them; invariant by induction over histories in which owners write anything; count_free proved right without deallocations and characterised exactly after one.
* **C58 The handle heap keeps allocated regions apart**: addresses as offsets, headers as a map from address; invariant that free chunks and regions tile the storage, by induction over histories; negations for sizes that leave less than a header, exact fit at the list head, and maintenance after a merge.
* **C59 Streambufs buffered through a bip buffer deliver every character once and in order**: both classes over the C31 bip buffer model, generic in the wrapped sink (taking everything) and source (short reads allowed); refinement to (sent, pending) and to the remaining text by induction over histories; negations for partial or refused drains, block reads, and characters confused with end of file.
* **C60 Scoped locks protect their blocks under every schedule**: programs with nested scoped locks compiled to acquire/act/release instructions as the constructors and destructors perform them, over an assumed platform mutex; invariant by induction over schedules; deadlock freedom for ordered nesting by a maximal-lock argument; negations for unordered nesting and for unique_lock.
* **C61 A function object owns its callable**: heap of models (a model may hold another function object), constructor selection by value category; refinement to one-owner semantics with ownership chains as the invariant, counting argument for exactly-once; negations for copies and self-assignment.
* **C62 Formatted extraction reads numbers, characters and words**: ws, the iterator, the digit loop and the word loop as functions over the C36/C37 stream; reduction to the C20 parser; induction over lists of numerals; end to end with the C38 chain theorem; negations for end of text, a lone '-', overflow, failed streams, NUL with std traits and the 0xFF hang.
* **C63 Parameter packs: looking up, selecting and visiting**: Packs as lists, template recursion as list recursion, ill-formed programs as none; inductions against filter, index and fold; visiting specified by the first accepted item; negation: contains is false for a repeated value.
* **C64 Tuples keep, apply and visit their elements**: Tuple as the list of its storage bases; get by recursion to the base; invariant over assignment histories; visiting simulated on plain values; negations for the bool answer of visit, dangling references to empty elements, uninitialised scalars and make_tuple without decay.
* **C65 Output iterators put what they are given**: Iterator as attached flag plus last_written (possibly indeterminate) over any output implementation; refinement to the put history; induction for copies; negations: failed() is inverted, forgets it++ and is undefined at first, back_insert has no return, filter_iterator maps, iterated strings overfill.
* **C66 Device stream buffers neither lose nor invent bytes**: Device as environment (pending bytes, accept schedule); refinement to a byte queue over interleaved histories; output by the honest-sputn theorem; negations: 0xFF is consumed and read as eof with signed char, bytes from 0x80 read negative under standard traits, negative gbump never ends, a sent 0xFF is reported refused. The same for the Pico stdio driver, whose output call reports nothing and whose input call can fail.
* **C67 Arrays are windows on their storage, maps look up the first entry, stacks are last in first out**: Storage as objects of possibly indeterminate cells, arrays as views; refinement of histories to a map from cells to values; maps refine association lists with the caller's interleaved changes; stack over the vector model refines a list; negations: longer initialiser lists overrun, a short one makes failed lookups undefined, empty back/top/pop are not refused.
* **C68 byteswap reverses bytes and flags are sets**: Builtin as a byte loop, overload resolution and conversions explicit; induction on the byte count; negations for 8 bit types (always 0 or -1) and int64_t (no overload). Flags through promotion to int and back, bitwise.
* **C69 swap trades two values, exchange hands back the old one, pairs compare lexicographically**: Objects in a memory of bit vectors; swap statement by statement with integer promotion; exact characterisation of when it is right; reverse, bubbling up and pushing down proved never to self-swap; negations: self-swap zeroes, popping a heap of one integer zeroes it, pairs swapped with themselves, rvalues copied into pairs. Pair comparison proved lexicographic and a strict weak order over arbitrary component orders.
* **C70 The handle-linked memory pool hands out each slot once**: Slots with truncated handles and an end mark; inductive reachability over histories that records each owned slot's object; invariant: free list and owned slots partition the storage, handles fit; negations: constructing from an exhausted pool writes through null, a slot returned twice is handed out for ever, a pool of no slots.
* **C71 Element accessors**: Verif/Accessor: accessors as pointers into the buffer with a refinement to an element-reference semantics over every program without accessor-to-accessor assignment; those are proved to do nothing (or to rebind a variable). Handles over blocks with lock counts and epochs (a reference dies when its block moves): refinement over every program with compaction steps. Offset arithmetic on BitVec w.
* **C72 Growable vectors**: Verif/Growable: memory as a list of live or given-up blocks with a plan of allocator answers; the vector as handle, remembered capacity and length. Refinement to lists over every legal history with granted requests, with a one-live-block invariant; exact counts of requests and copied cells for n push_backs (closed form), hence no amortised bound; allocation failure, reserve below the size, aliasing arguments, returned iterators, copies, destruction and construction proved wrong in general.
* **C73 FreeRTOS mutexes, semaphores, queues, event groups and timeouts**: Verif/Rtos: the wrappers function by function over kernel objects (semaphore counts, mutex holders, item lists, 24 bits). The kernel's own calls are not in the repository; their documented behaviour, each call atomic, is an assumption of the model. A schedule is the list of returned calls with their tasks; invariants by induction over schedules against specifications that read only the trace of calls and answers. Timeouts reuse the duration conversions of Verif/Chrono. Copies of wrappers, binary mutexes, releases at the maximum, foreign unlocks without asserts and the timeout conversions are proved wrong in general.
* **C74 Lifetimes of vector elements**: Verif/Lifetime: cells are raw memory or an object (a value or moved-from), with counts of constructions and destructions; placement new, assignment, destruction and reading are the primitives, and touching a cell without an object is undefined. Invariants by induction over the histories fit for each kind of storage; for every other operation, what it does after any such history.
* **C75 Function objects that refer to a callable**: Verif/Func/Refs: model objects in a list of places, function objects as a pointer to a place plus the place inside the object; calling or destroying a dead callable, and calling through a null pointer, are undefined. Refinement to a world that says what each object keeps and whose callable it calls, by induction over histories in which originals outlive copies; copies of objects that went, second static functions of a type and spent one-call models in general after any such history.
* **C76 Storage for objects is large enough and aligned**: Verif/Layout: a calculus of sizes, alignments and offsets (structures, unions, arrays, alignas) with the layout of each class written in it; the calculus is proved sound (members inside, aligned, apart), then for each class the exact condition (iff) on the types under which the object fits at every address, and for maps the exact condition under which control entries and value pairs agree. The conditions that fail for ordinary types are stated as violations.
* **C77 An exception thrown by an element leaves the container usable**: Verif/Throw: each operation of the sum types carries a flag that the constructor or assignment it runs throws; a specification says what each container holds afterwards. By induction over programs: when exceptions come only where nothing was destroyed before, storage and record agree with the specification for ever. For every other place the state left behind is computed after any such program and shown wrong. Deque, vector and pool: the operations cut off at the throw, over the existing models (C08, C74, C27).
* **C78 An unordered map destroys each mapped value once and never shows one that is not there**: Verif/Unordered/Lifetimes.lean: each operation of the slot model (C21, C22) is accompanied by the list of constructor, destructor and use events it causes on slots; running the events over the set of living objects is undefined when one is missing and counts objects that are overwritten. Invariant by induction over histories: the living mapped values are those of the slots whose key is not null, and constructed = destroyed + lost + size(). The operations that break it are shown to break it after every such history.
* **C79 Extracting a bool reads back what was written and reports what is not a flag**: Verif/Streams/ExtractBool.lean: the loop over istreambuf_iterators (C62) feeding the digit test or the chooser (C45). The loop is reduced to one over the remaining text; a lemma by induction over the text says what happens once a name is chosen. Round trip by induction over the list of flags. Texts for which the behaviour is wrong are characterised and the wrong behaviour proved for all of them.
* **C80 A forward list that owns its nodes keeps its values, its memory and their lifetimes in order**: Verif/Lists/Nodes.lean: memory as a partial map from addresses to nodes, the allocator's choice an argument of each operation. Refinement to a sequence of (address, value) by induction over histories, with the invariant that memory held is exactly that of the elements and of what erase_after/remove_if dropped. Leaks and missing destructors follow for every history.
* **C81 Extracting a floating-point number stores the nearest representable value**: Verif/Streams/FloatFmt.lean: floating-point values over the rationals; a format is its rounding function, of which the specification names four laws; the IEEE 754 binary formats are defined by rounding on a grid and shown to satisfy them. Verif/Streams/ExtractFloat.lean: the digit machine with its 8-bit count of places over istreambuf_iterators (C62), reduced to a loop over the remaining text. By induction over the digits: nothing is rounded before the division while the digits make an integer within the precision; beyond the range the value grows by at least 8 per digit until it is infinite. Texts for which the behaviour is wrong are characterised and the wrong behaviour proved for all of them. Verif/Streams/FloatError.lean: the error of longer numbers, by induction over the digits: each step is off by at most the unit roundoff, so the result is the exact number times a factor between powers of 1 - u and 1 + u.
* **C82 Vectors and strings work in memory that moves while it is not locked**: Verif/Moving/Machine.lean: a small language of locks, unlocks, reads, writes and allocations, with a machine that moves unlocked blocks by a schedule before every step (stale pointers, locked reallocation and unbalanced unlocks are undefined), and a second machine without a schedule; whatever is defined on the second is defined on the first under every schedule with the same results (exec_of_sexec, by induction over programs). Verif/Moving/Model.lean: the operations as such programs. Props, Steps, Ops, Ops2, Hist: contents over lists, an invariant that every array is in a block of its own that holds its elements, one lemma per operation, histories by induction. Operations that break the discipline are proved undefined or wrong for every schedule.
* **C83 Optionals compare with values and hash by what they hold**: Verif/Sum/Compare.lean: the operators and the hash over the optionals of C32 (storage and flag, sentinel, bit field), with a specification of the order on Option; the answers are proved for every optional reachable by a legal history, from the invariant of C32. What the code gets wrong (< of an empty optional, hash of an empty one, monostate !=) is proved for all values.
* **C84 A quantity prints as its count and the name of its unit**: Verif/Streams/PutUnit.lean: the insertion as a chain of the insertions of C38, over the floating-point formats of C81. Arithmetic: rounding the product with 100 of a number of the format crosses no integer, and no multiple of 100 that the number itself does not reach (by the grid of the format), so whole part and hundredths belong to one number less than a hundredth away. The rest by chain_partial of C38. What the code gets wrong is proved for every value concerned.
* **C85 Visiting a variant shows the object it holds; making one from a value stores that value**: Verif/Sum/Visit.lean: the walk over the alternatives as recursion on the number left, over the variants of C34; induction shows that the walk skips everything before the held alternative. The index is read again at each step, so what a functor that replaces the content sees is stated exactly. Destroying, copying and moving as walks are proved equal to the one-step definitions of C34.
* **C86 A software timer calls back only when asked to run, and never after it has been deleted**: Verif/Rtos/Timers.lean: the wrappers over a queue of commands and a list of kernel timers; the kernel's timer service is modelled by its documentation, as in C73. Verif/Rtos/TimerProps.lean: invariant (accepted = carried out ++ pending, and what the carried-out part says about each timer) by induction over schedules. Verif/Rtos/TimerFaults.lean: refused destructors, callbacks after the destructor, static storage, double deletion, short periods and failed creation, each after every legal schedule.
* **C87 A blocking stream waits for the text, a non-blocking one says that there is none yet**: Verif/Streams/Live.lean: a stream buffer together with the list of arrivals to come, one of which comes in at each call of the buffer; peek, get, ws, do_input and the integer loop over it, with fuel for loops that may wait for ever; theorems hold for all fuel. Specification: the first word of a text and the words one after the other, which depend on the text only. Verif/Streams/LiveProps.lean: by induction over the loops, what a blocking extraction gives and when it comes back; two schedules of one text give the same words. LiveMore.lean: integers that arrive in one piece, and cut ones. LiveFaults.lean: one non-blocking attempt, the polling program by induction over arrivals, and the places where the policies fail.
* **C88 Clocks measure elapsed time and sleeping lasts as long as asked**: Verif/Chrono/Clocks.lean: the environment is the true number of ticks; now() shows it reduced to the counter's width; elapsed time, comparison and the two ways of waiting are the model's time point operations (C54) on such readings. Exactness by modular arithmetic, the waiting loops by induction over the polls. Verif/Chrono/Sleep.lean: real time is a rational number of seconds; delay and vTaskDelay by their documentation; what sleep_for hands them through the modelled duration_cast (C41), and when it returns compared with the time asked for.
* **C89 Type traits classify every type as the C++ standard does**: Verif/Traits/Model.lean: types as an inductive type, templates as the tables of their specialisations with a matching function, each trait transcribed row by row; a use that does not compile is none. Spec.lean: the category of a type by the standard. Props.lean: each trait equals its specification for all types by cases and induction over the type; where it does not, the negation for every type concerned.
* **C90 Type transformations give the type the C++ standard says**: Verif/Traits/Transform.lean, on the model of C89: each transformation's result is characterised (existence and uniqueness of the unqualified type, the standard's definition of decay as a relation, the corresponding signed type by rank and size) and proved for all types that exist; exceptions are stated for every type concerned.
* **C91 References to the elements of an unordered map stay good until the element is erased**: Verif/Unordered/Stable.lean, on the model of C21-C23: a reference is a slot number; one lemma per operation says that it leaves an occupied slot alone unless it is about its key, and induction over the history gives the theorem.
* **C92 Erasing while iterating visits every element once and keeps the others**: Verif/Unordered/Stable.lean: the loop with fuel on the model of C22; by induction over the fuel the slots looked at are the occupied ones in order and the remaining elements those that fail the predicate; a bound for the fuel; undefined for every map when the slot behind the array cannot be read.
* **C93 Every observer of a subject is notified exactly once, in order**: Verif/Observer/Model.lean: subjects as nested lists of referenced observers, held observers and proxies, notification by recursion with the calls made. Spec.lean: a subject is a flat list of observers, the calls an event brings about are a filter of it, and the states are those calls replayed. Props.lean: refinement for every program by induction over subjects and programs.
* **C94 Editing and assigning priority queues keeps their order**: Verif/Heap/QueueEdits.lean: queues by number, each with a comparator object and contents, on top of the heap of C06/C07. Specification: what each call does to the multiset of elements. Invariant (heap order) over all reachable states; general theorems for what is wrong.
* **C95 A handle descriptor tells the truth about the memory it describes**: Verif/Descriptor: the descriptor over an arbitrary allocator given by its functions, instantiated with the fixed buffers and with the allocator of blocks of C72. Specification: a list of cells, absent or present. Refinement over all histories; general theorems, over all further histories, for what is wrong.
* **C96 Strings that share characters show one text, and changing a string never depends on where the added characters lie**: Verif/StringKinds: one memory with all buffers; a string is a start, a capacity, a size type and a way to keep the length. Each call proved for every memory in which its source lies apart; general theorems saying what comes out where it does not. Refinement, over all histories, to one text per buffer.
* **C97 stol, stoul and stoi read the number a string starts with**: Verif/Text/Sto.lean: the C library's subject sequence as a scan over memory in which a missing terminator is undefined; specification by decomposing the text into blanks, sign, prefix, digits and rest. Scan proved to find exactly the specified decomposition; the results for numbers that do not fit or are absent proved for every such text.
* **C98 Objects that own other objects through shared pointers live exactly as long as something owns them**: Verif/Owned: control blocks with the members of their objects; deletion as a worklist with a decreasing measure. Refinement to a heap that never deletes and never counts (Spec.Heap): an invariant relating counts to owners is proved through the cascade, with well-founded ownership (Spec.Gone) saying exactly what has been deleted. Corollaries for reachable objects, for circle-free heaps and for circles.
* **C99 Text accepted by a check is converted to the number it spells**: Verif/Text/Legacy.lean, over the model of strtol made for C97: exact characterisation of what each check accepts, of what each conversion gives for it, and agreement of legacy::from_chars with the documented behaviour of from_chars (Charconv.Spec.parse) where the range is terminated and plain; each departure for every text of its form.
* **C100 Log lines reach the function installed when they are logged, whole and in order**: Verif/Log/Main.lean: the log as a state machine with one output per function; induction over histories gives each function's output as the concatenation of the lines of exactly the calls made while it was installed. Negative theorems: a tag with a percent sign.
* **C101 Streams over C files and through the virtual interface carry every character**: Verif/Streams/Virtual.lean: the wrapper as a transformer of output implementations and a C FILE with its buffering mode as one; induction over chains of insertions (the specification of C38) gives exactly what arrives. Negative theorems: single characters, newlines and fills are lost through the virtual interface; flush and endl do not move what the C library holds back; readsome never reads from a file.
* **C102 Walking a list in lockable memory leaves no node locked**: Verif/Lists/Locks.lean: the list of C26 with an account of lock and unlock calls per handle and numbered iterators; refinement to a plain sequence with positions, by induction over histories from the empty list, gives the exact account. Negative theorems: reads are never unlocked, every pass locks every node once more, -- unlocks the node it arrives at, += of a negative number is undefined, - of an int never returns, front() and back() return unprotected addresses.
* **C103 Shared objects made in a memory pool go back when the last owner goes**: Verif/Pool/Shared.lean: the pool of C70 with a control block per slot and a list of handles; refinement to a specification that knows the slots in the pool, the stage of the others and where the handles point, by induction over histories from a new pool. Negative theorems: no destructor of an object ever runs; pool.destroy on the only owner puts the slot in the pool twice; with handles it takes the slot away under them; a handle copied after the shared pointer was reset is not counted; construct() on an empty pool is undefined.
* **C104 An unordered map can hold several elements under one key**: Verif/Unordered/Multi.lean: the model of C21-C23 with the other arm of insert_precheck and with equal_range_exp; refinement to a collection of pairs up to order, by induction over histories from an empty map, with the placement invariant of C22 freed from the uniqueness of keys. Histories without erasures need no condition on the hash, and keep the order of insertion. Exactly when an insertion is refused or undefined. Negative theorems: the range depends on the bucket alone and shows other keys; an insertion into the slot of an erased element hides elements of other buckets from count.
* **C105 A bip buffer can be shared by a main program and an interrupt handler**: Verif/Bip/Handler.lean: bipbuf_offer and bipbuf_peek + copy + bipbuf_poll taken apart into single accesses (sequentially consistent, one processor), with the other side as one atomic action of the handler; invariants per program point, by induction over schedules from bipbuf_init (HandlerIn.lean, HandlerOut.lean). The accesses run alone are shown to be the calls of C31. Negative theorems for every buffer: at which moment an interrupt loses, overwrites, replaces or repeats bytes, jams the buffer for ever, or writes past the array.
* **C106 The optional checks and moves of vectors and strings do what they promise**: Verif/DynArray/Options.lean (fixed buffers: the memmove branch at element and at byte level, checked append) and Verif/Growable/Checked.lean (growable vectors with the checks compiled in, over an allocator that refuses any requests it likes). By induction over histories of a program that heeds the answers; refinement to the unchecked model; general negative theorems for what the options do not deliver.
* **C107 A queue between an interrupt handler and the main program loses, repeats and invents nothing**: Verif/Deque/Handler.lean: the calls of the main program as single accesses, the handler's calls whole, on the deque of C08. HandlerIn.lean and HandlerOut.lean: invariants at every access, preserved by every action of every schedule in which the handler does not fill the queue during a pop, or take the last element during a push; without interrupts the accesses amount to the calls of C08; general negative theorems for the windows excluded.
* **C108 A block pool shared by an interrupt handler and the main program never gives a block to both**: Verif/Pool/Handler.lean: the calls of the main program as single accesses of the head and the links, the handler's calls whole, on the pool of C27. Invariant at every access, preserved by every action of every schedule in which interrupts inside a call give back what they took; without interrupts the accesses amount to the calls of C27; general negative theorems for the windows excluded.
* **C109 An object shared by several tasks is deleted once, when its last owner goes**: Verif/SharedPtr/Tasks.lean: every call as single accesses of shared_count and is_active, by any number of tasks. Invariant (count = owners + a handle being given up) preserved by every action of every schedule whose calls are in critical sections, in which copies made and destroyed at one go may come at any time; uninterrupted calls amount to those of C29; general negative theorems for overlapping calls.
* **C110 Text and arrays in program memory are read as they are there**: Verif/Pgm: program memory as a list of bytes of its own, avr-libc from its manual. Round trips: whatever was stored (text, or integers of any width, low byte first) reads back by induction over the text or the array. General negative theorems for what the code gets wrong.
* **C111 Quantities and calendar fields add up with plain numbers**: Verif/Units/Numbers.lean: on the unit model of C55; histories by induction with arithmetic modulo the width (signed types of 32 bits and more must not overflow). General negative theorems for months beyond December and unsigned counts against negative numbers.
* **C112 Writing with a time limit delivers the text, or says that it did not**: Verif/Streams/Timed.lean: the loop over an environment of attempts (room, duration), by induction on it; reading outside memory is undefined. General negative theorems for devices with room to spare, for the missing error state, for a pause of zero and for the default settings.
* **C113 Spans over the same memory agree with each other and with their bytes**: Verif/Span/Main.lean: memory as bytes, spans as address and length; refinement to one array of objects and windows on it, by induction over histories. General negative theorem for subspan without a count.
* **C114 A vector filled and emptied by an interrupt handler and the main program delivers each element once**: Verif/DynArray/Handler.lean: the main program as a machine of single loads and stores, the handler at one go between any two of them; invariant over schedules, refinement to one list. General negative theorems for each window that is open in the code.
* **C115 An interrupt handler that reads a string finds a text the program has made**: Verif/DynArray/Reader.lean: each edit as its list of stores in order, the reader as strlen between any two of them; exact description of what is found, by cutting the buffer; shown to be the append of C10 when it is done. General negative theorems for longer appends, assignments and handlers that append.
* **C116 A linked list can be walked while it is edited**: Verif/Lists/Reader.lean: each edit as its list of stores, the handler's walk between any two of them; then a loop with a cursor and handler edits between its steps, invariant: the cursor divides the list, what was visited and what is ahead keep the order of the nodes that stay. General negative theorems for insertions, replacements and nodes that are moved.
* **C117 An optional works as a mailbox between the main program and an interrupt handler**: Verif/Sum/Mailbox.lean: words and flag accessed one at a time, two machines (who is the handler) and the flavour without a flag; invariant over all schedules; general negative theorems for values that are overwritten and for the null-value flavour. Verif/Sum/MailboxBits.lean: the bit-field flavour, where value and flag share a word that is loaded, changed and stored whole.
* **C118 An unordered map can be searched by an interrupt handler while it is edited**: Verif/Unordered/Reader.lean: each edit as its list of stores (shown to be the edit of C21/C22), a lookup after any number of them; keys found through slots the edit does not touch are found throughout; general negative theorems for the key of an insertion (found with the old bytes) and for keys behind an erased one (hidden until it is marked).
* **C119 An interrupt handler can look at the top of a priority queue while it is edited**: Verif/Heap/Reader.lean, and Verif/Heap/EraseSeen.lean for `erase`: each call as its list of stores (shown to be the call of C06/C07), both ways of swapping; bubbling up and pushing down store to the first element at most once; general negative theorems for the first push and for pops.
* **C120 A callback can be replaced while an interrupt handler calls it**: Verif/Func/Handler.lean: the owning and the pointing function object, the main program one load or store at a time, handlers as whole operations in between; invariant by induction over schedules, against a list of events with one callback at a time; general negative theorems for the windows in which the code breaks.
* **C121 An interrupt handler can copy and drop references of a linked ring**: Verif/LinkedRef/Handler.lean: the copy constructor and the destructor one access to the ring at a time, handlers as whole visits in between; a visit restores the ring exactly, then induction over schedules on top of C30; general negative theorems for a visit between the two stores of an insertion and for copies the handler keeps.
* **C122 An interrupt handler can look at a variant or an expected that the main program changes, and the reverse**: Verif/Sum/Shared.lean: every operation as its list of stores, words first to last and the index where the code stores it; looks between any two; an invariant about every prefix of the remaining stores; general negative theorems for assignments across alternatives and for values of several words, in both directions.
* **C123 The callback of emplace_with_notify may use the queue itself**: Verif/Heap/Reentrant.lean: the container while the callback runs, with the new element at its end; induction over what the callback does, on top of C07; a general negative theorem: the way up from the pushed element never touches the cell of the one before it.
* **C124 An unordered container of N slots takes N elements**: Verif/Unordered/Capacity.lean and Verif/Unordered/IntKeys.lean: bucket starts are gcd(4, N) apart; invariant of tables filled evenly, by induction over the insertions; a counting argument for integers out of a window of N consecutive ones, of any type and any size_t; a general negative theorem for a bucket that gets one element too many.
* **C125 A stream's state, flags and width can be changed by the main program and an interrupt handler**: Verif/Streams/IosShared.lean: every call of the main program is a load and a store of the fields that share a piece of memory, the handler's calls run at once; invariants over all schedules; the exact effect of a handler between load and store, and general negative theorems from it.

## Not modelled

Template metaprogramming plumbing beyond what C45, C46, C63, C64, C89 and C90 state, platform ports other than the FreeRTOS wrappers
(C73, C86; the kernel itself is assumed to do what it documents), the clocks and sleeping (C88) and the device stream buffers (C66), floating point other than extraction (C81), wide characters, locale facets beyond
the classic one, and real concurrency inside containers (the library has no thread-safe containers of its own; mutex
wrappers delegate to the platform, whose behaviour C60 and C73 assume).

## Wrong programs tried

`seeded/LOG.jsonl` has one line per edit. Lines without `outcome` are edits that were killed. Until late in the work only
killed edits were logged; survivors, edits that did not type-check and the generated edits were added afterwards, from the
recorded output of the runs, with `outcome` and a `note`. Survivors of early runs whose output was not kept may be missing.

* `survived`: everything still built. Some of these edits change nothing that can be observed, others change samples or
  specifications; they were not all classified, so a survivor may point to a theorem that is too weak.
* `example-only`: only an example failed, no theorem.
* Outcomes are those at the time of the run; theorems added later may kill some of the survivors.
* Ten of them were repeated at the end: eight no longer build, two still survive (`moverInvoke` in Variadic/Model and
  `visitElem` in Variadic/Tuple, both about the answer for a case at the edge); these were not followed up, nor were the rest.
* The edits prepared against Streams/IosShared (C125) were not run.

## What is modelled

Per Lean module, the source files its definitions cite (the comments give the lines).

* `Verif/Accessor/Model`: accessor.h, internal/container/handle_with_offset.h, internal/container/locking_accessor.h, internal/container/traditional_accessor.h, internal/runtime_array.h, vector.h
* `Verif/Algorithm/Model`: algorithm.h, internal/algorithm/raw.h, utility.h
* `Verif/Arrays/Model`: array.h, estd/array.h, internal/array.h, internal/deduce_fixed_size.h, internal/legacy/array.h, internal/runtime_array.h, map.h, stack.h
* `Verif/Bip/Handler`: ext/willemt/bipbuffer/bipbuffer.c, ext/willemt/bipbuffer/bipbuffer.h
* `Verif/Bip/HandlerIn`: ext/willemt/bipbuffer/bipbuffer.c
* `Verif/Bip/HandlerOut`: ext/willemt/bipbuffer/bipbuffer.c
* `Verif/Bip/Model`: ext/willemt/bipbuffer/bipbuffer.c, ext/willemt/bipbuffer/bipbuffer.h, internal/bip/buffer.h
* `Verif/Bits/Props`: bit.h, flags.h
* `Verif/Charconv/Model`: charconv.h, internal/cctype.h, internal/charconv.hpp, internal/charconv/from_chars.hpp, internal/charconv/reverse.hpp, internal/locale/cbase.h, internal/raise_and_add.h
* `Verif/Charconv/NumGet`: internal/locale/iterated/num_get.h, internal/locale/num_get.h, internal/raise_and_add.h
* `Verif/Chooser/Props`: internal/chooser.h
* `Verif/Chrono/Clocks`: internal/chrono/time_point.h, operators.hpp, port/arduino/chrono.h, port/esp-idf/chrono.h, port/freertos/chrono.h, port/rpi/pico/chrono.h
* `Verif/Chrono/Model`: internal/chrono/duration.h, internal/chrono/duration.hpp, internal/chrono/formatter.hpp, internal/chrono/math.h, internal/chrono/ratio.h, internal/chrono/units.hpp, internal/common_type.h, internal/fwd/chrono.h, internal/fwd/ratio.h, internal/numeric.h, internal/promoted_type.h, internal/units/base.h, numeric.h, operators.hpp, ratio.h
* `Verif/Chrono/Promoted`: internal/promoted_type.h
* `Verif/Chrono/Sleep`: port/arduino/thread.h, port/freertos/thread.h, port/rpi/pico/chrono.h
* `Verif/Chrono/TimePoint`: internal/chrono/duration.h, internal/chrono/time_point.h, operators.hpp
* `Verif/Deque/Handler`: queue.h
* `Verif/Deque/Model`: queue.h
* `Verif/Descriptor/Model`: algorithm.h, allocators/fixed.h, allocators/handle_desc.h, fixed.h, handle_desc.h, internal/deduce_fixed_size.h, internal/impl/handle_desc.h, internal/value_evaporator.h
* `Verif/DynArray/Handler`: dynamic_array.h, internal/dynamic_array.h, internal/impl/dynamic_array.h, internal/runtime_array.h
* `Verif/DynArray/InitList`: internal/dynamic_array.h, internal/runtime_array.h, vector.h
* `Verif/DynArray/Model`: allocators/fixed.h, dynamic_array.h, internal/deduce_fixed_size.h, internal/dynamic_array.h, internal/feature/dynamic_array.h, internal/impl/dynamic_array.h, internal/impl/handle_desc.h, internal/string.h, internal/value_evaporator.h
* `Verif/DynArray/Options`: dynamic_array.h, internal/dynamic_array.h, internal/feature/dynamic_array.h
* `Verif/DynArray/Reader`: dynamic_array.h, internal/container/specializer.h, internal/dynamic_array.h, internal/impl/dynamic_array.h
* `Verif/Func/Handler`: functional.h, internal/functional.h, internal/impl/functional/fnptr2.h
* `Verif/Func/Props`: functional.h, internal/functional.h, internal/impl/functional/fnptr2.h
* `Verif/Func/Refs`: exp/functional.h, functional.h, internal/functional.h, internal/impl/functional.h, internal/impl/functional/fnptr1.h, internal/impl/functional/fnptr2.h
* `Verif/Growable/Checked`: dynamic_array.h, expected.h, internal/container/specializer.h, internal/dynamic_array.h, internal/expected.h, internal/feature/dynamic_array.h
* `Verif/Growable/Model`: allocators/handle_desc.h, dynamic_array.h, internal/container/specializer.h, internal/dynamic_array.h, internal/impl/dynamic_array.h, internal/impl/handle_desc.h, internal/runtime_array.h, traits/allocator_traits.h
* `Verif/Hash/Model`: hash.h, internal/functional/hash.h, internal/string/hash.h
* `Verif/Heap/EraseSeen`: dynamic_array.h, internal/algorithm/heap.h, internal/priority_queue.h
* `Verif/Heap/Lemmas`: heap.h
* `Verif/Heap/Model`: heap.h, internal/algorithm/heap.h
* `Verif/Heap/PriorityQueue`: internal/priority_queue.h
* `Verif/Heap/QueueEdits`: internal/priority_queue.h, internal/value_evaporator.h
* `Verif/Heap/Reader`: dynamic_array.h, internal/algorithm/heap.h, internal/priority_queue.h, utility.h
* `Verif/Heap/Reentrant`: internal/priority_queue.h
* `Verif/Layout/Model`: allocators/fixed.h, exp/memory/memory_pool.h, expected.h, ext/willemt/bipbuffer/bipbuffer.h, internal/array.h, internal/bip/buffer.h, internal/container/unordered/base.h, internal/container/unordered/fwd.h, internal/container/unordered/traits.h, internal/deduce_fixed_size.h, internal/expected.h, internal/functional.h, internal/fwd/variant.h, internal/impl/dynamic_array.h, internal/memory/v1/pool.h, internal/optional.h, internal/raw/type_traits.h, internal/raw/variant.h, internal/value_evaporator.h, internal/variadic.h, internal/variant.h, internal/variant/storage.h, memory.h, traits/list_node.h, utility.h
* `Verif/Lifetime/Model`: algorithm.h, allocators/fixed.h, dynamic_array.h, internal/array.h, internal/container/specializer.h, internal/dynamic_array.h, internal/impl/dynamic_array.h, internal/impl/handle_desc.h, vector.h
* `Verif/LinkedRef/Handler`: internal/linked_ref.h, internal/list/intrusive_forward.h
* `Verif/LinkedRef/Model`: internal/linked_ref.h, internal/list/intrusive_forward.h
* `Verif/Lists/Locks`: internal/list_node.h, internal/opts.h, internal/reverse_list.h, iterators/list.h, list.h, traits/list_node.h
* `Verif/Lists/Model`: forward_list.h, internal/list/base.h, internal/list/intrusive_forward.h, internal/list_node.h, internal/reverse_list.h, list.h
* `Verif/Lists/Nodes`: allocators/generic.h, forward_list.h, internal/list_node.h, iterators/list.h, traits/list_node.h
* `Verif/Lists/Reader`: base.h, forward_list.h, internal/list/intrusive_forward.h, internal/list/iterator.h, internal/list/traits.h
* `Verif/Locks/Props`: mutex.h
* `Verif/Log/Main`: internal/utility.cpp, port/esp-idf/fake/esp_log.h
* `Verif/Moving/Hist`: internal/container/accessor.h, internal/container/iterator.h, internal/runtime_array.h
* `Verif/Moving/Machine`: internal/container/iterator.h, internal/impl/handle_desc.h, traits/allocator_traits.h
* `Verif/Moving/Model`: algorithm.h, allocators/handle_desc.h, dynamic_array.h, internal/container/ends_with.h, internal/container/specializer.h, internal/container/starts_with.h, internal/dynamic_array.h, internal/impl/dynamic_array.h, internal/impl/handle_desc.h, internal/runtime_array.h, internal/string.h, internal/string/operators.h, traits/allocator_traits.h, traits/char_traits.h
* `Verif/Observer/Model`: exp/observer.h
* `Verif/Owned/Main`: memory.h
* `Verif/Owned/Model`: memory.h
* `Verif/Pgm/Model`: accessor.h, allocator.h, allocators/fixed.h, array.h, exp/pgm/impl.h, exp/pgm/policy.h, exp/pgm/read.h, internal/container/iterator.h, internal/container/specializer.h, internal/ostream_basic_string.hpp, internal/runtime_array.h, internal/string.h, string.h
* `Verif/Pool/Handler`: internal/memory/v1/pool.h, pool.h
* `Verif/Pool/Linked`: exp/memory/memory_pool2.h
* `Verif/Pool/Model`: internal/memory/v1/pool.h, pool.h
* `Verif/Pool/Shared`: exp/memory/memory_pool.h, internal/value_evaporator.h, memory.h
* `Verif/Pool/V1`: exp/memory/memory_pool.h, forward_list.h, internal/deduce_fixed_size.h, internal/iterator_standalone.h, list_node.h
* `Verif/Pool/Virtual`: exp/memory/memory_pool2.h
* `Verif/Rtos/Model`: chrono.h, event_groups.h, mutex.h, port/freertos/wrapper/event_groups.h, port/freertos/wrapper/queue.h, port/freertos/wrapper/semphr.h, queue.h, semaphore.h, thread.h
* `Verif/Rtos/Timers`: port/freertos/timer.h, port/freertos/wrapper/timer.h, timer.h
* `Verif/SharedPtr/Access`: memory.h
* `Verif/SharedPtr/Model`: memory.h
* `Verif/SharedPtr/Tasks`: memory.h
* `Verif/Span/Main`: span.h
* `Verif/Streams/BipIn`: internal/impl/streambuf/bipbuf.h, internal/impl/streambuf/helpers.h, streambuf.h
* `Verif/Streams/BipOut`: internal/bip/buffer.h, internal/impl/streambuf/bipbuf.h
* `Verif/Streams/Device`: base.h, internal/impl/streambuf/base.h, internal/impl/streambuf/helpers.h, port/arduino/streambuf.h, streambuf.h
* `Verif/Streams/Extract`: internal/feature/ios.h, internal/impl/dynamic_array.h, internal/istream_runtimearray.hpp, internal/istreambuf_iterator.h, internal/locale/iterated/num_get.h, internal/locale/num_get.h, istream.h, iterator.h, locale.h, num_get.h
* `Verif/Streams/ExtractBool`: internal/locale/iterated/num_get.h, internal/locale/num_get.h, internal/locale/numpunct.h, istream.h, num_get.h
* `Verif/Streams/ExtractFloat`: internal/locale/iterated/num_get.h, internal/locale/num_get.h, istream.h, num_get.h
* `Verif/Streams/ExtractOverflow`: internal/locale/iterated/num_get.h, internal/locale/num_get.h, traits/char_traits.h
* `Verif/Streams/FloatFmt`: internal/locale/iterated/num_get.h
* `Verif/Streams/In`: algorithm.h, base.h, internal/container/specializer.h, internal/impl/streambuf/helpers.h, internal/impl/streambuf/pos.h, internal/ios_base.h, internal/runtime_array.h, span.h, streambuf.h, string.h, traits/char_traits.h
* `Verif/Streams/InProps`: span.h
* `Verif/Streams/Ios`: internal/feature/ios.h, internal/ios_base.h
* `Verif/Streams/IosShared`: internal/ios_base.h
* `Verif/Streams/Istream`: internal/feature/ios.h, internal/ios_policy.h, internal/istream.h, iosfwd.h, istream.h, traits/char_traits.h
* `Verif/Streams/Live`: base.h, internal/impl/streambuf/helpers.h, internal/ios_base.h, internal/ios_policy.h, internal/istream.h, internal/istream_runtimearray.hpp, internal/istreambuf_iterator.h, internal/locale/num_get.h, internal/stream_flags.h, istream.h, num_get.h, port/arduino/istream.h, port/arduino/streambuf.h, streambuf.h, string.h
* `Verif/Streams/Ostream`: integer.h, internal/feature/ios.h, internal/iomanip.h, internal/ios_base.h, internal/ios_policy.h, internal/limits/integer.h, internal/limits/traits.h, internal/locale/num_put.h, internal/locale/numpunct.h, internal/ostream.h, internal/ostream/integer.h, iomanip.h, ios.h, num_put.h, ostream.h
* `Verif/Streams/Out`: base.h, buffer.h, internal/impl/streambuf/pos.h, span.h, streambuf.h, string.h, traits/char_traits.h
* `Verif/Streams/OutIter`: algorithm.h, internal/iterator/back_insert.h, internal/ostream_basic_string.hpp, internal/ostream_iterator.h, iterator.h
* `Verif/Streams/Pico`: base.h, internal/impl/streambuf/base.h, internal/impl/streambuf/helpers.h, port/rpi/pico/streambuf.h, streambuf.h
* `Verif/Streams/PutUnit`: internal/units/bytes.h, internal/units/ostream.h, internal/units/percent.h, internal/units/si.h, ostream.h
* `Verif/Streams/Timed`: internal/ios.h, internal/ostream.h, ios.h, ostream.h
* `Verif/Streams/Virtual`: base.h, internal/impl/streambuf.h, internal/impl/streambuf/base.h, internal/istream.h, internal/streambuf.h, ostream.h, port/posix/streambuf.cpp, port/posix/streambuf.h, streambuf.h
* `Verif/StringKinds/Model`: algorithm.h, allocators/fixed.h, dynamic_array.h, internal/container/specializer.h, internal/dynamic_array.h, internal/impl/dynamic_array.h, internal/impl/handle_desc.h, internal/layer1/string.h, internal/layer2/string.h, internal/layer3/string.h, internal/runtime_array.h, internal/string.h, string.h
* `Verif/Strings/Model`: algorithm.h, allocators/fixed.h, internal/container/ends_with.h, internal/container/specializer.h, internal/container/starts_with.h, internal/runtime_array.h, internal/string.h, span.h, string.h, string_view.h, traits/char_traits.h
* `Verif/Strings/Overloads`: internal/string.h
* `Verif/Sum/Compare`: hash.h, internal/functional/hash.h, internal/raw/variant.h, optional.h, variant.h
* `Verif/Sum/Expected`: expected.h, internal/expected.h, internal/variant/storage.h
* `Verif/Sum/Layer1`: internal/optional.h, optional.h
* `Verif/Sum/Mailbox`: internal/optional.h, optional.h
* `Verif/Sum/MailboxBits`: internal/optional.h, optional.h
* `Verif/Sum/Optional`: internal/optional.h, internal/variant/storage.h, optional.h
* `Verif/Sum/Shared`: expected.h, internal/variant.h, internal/variant/storage.h, variant.h
* `Verif/Sum/Storage`: internal/variant/storage.h
* `Verif/Sum/Variant`: internal/variant.h, internal/variant/storage.h, variant.h
* `Verif/Sum/Visit`: internal/variadic/visitor.h, internal/variant.h, internal/variant/storage.h, variant.h
* `Verif/Text/Ctype`: cctype.h, internal/cctype.h, internal/locale/ctype.h, traits/char_traits.h
* `Verif/Text/Legacy`: internal/string_convert.cpp, internal/string_convert.h
* `Verif/Text/Sto`: string.h
* `Verif/Text/ToString`: charconv.h, internal/charconv/string.h, internal/feature/string.h, internal/impl/dynamic_array.h, internal/limits/integer.h, internal/limits/traits.h, internal/to_string.h
* `Verif/Throw/Containers`: dynamic_array.h, internal/memory/v1/pool.h, queue.h
* `Verif/Throw/Sum`: expected.h, internal/expected.h, internal/optional.h, internal/variant.h, internal/variant/storage.h, optional.h
* `Verif/Traits/Model`: internal/feature/cpp.h, internal/limits/integer.h, internal/limits/traits.h, internal/llvm/is_void.h, internal/llvm_type_traits.h, internal/raw/type_traits.h, internal/type_traits/is_base_of.h, internal/type_traits/is_function.h, internal/type_traits/is_member.h, internal/type_traits/make_unsigned.h, limits.h, type_traits.h
* `Verif/Units/Numbers`: base.h, internal/chrono/units.hpp, internal/units/base.h, internal/units/operators.hpp, operators.hpp
* `Verif/Units/Unit`: fwd.h, internal/units/base.h, internal/units/percent.h, operators.hpp
* `Verif/Unordered/Capacity`: internal/container/unordered/base.h
* `Verif/Unordered/IntKeys`: hash.h, internal/container/unordered/base.h, internal/functional/hash.h
* `Verif/Unordered/Lifetimes`: base.h, internal/container/unordered/base.h, internal/container/unordered/traits.h, unordered_map.h
* `Verif/Unordered/Model`: /repo/internal/container/unordered/base.h, internal/container/unordered/base.h, internal/container/unordered/features.h, internal/container/unordered/traits.h, traits.h, unordered_map.h, unordered_set.h
* `Verif/Unordered/Multi`: internal/container/unordered/base.h, internal/container/unordered_map.h, unordered_map.h
* `Verif/Unordered/Props`: internal/functional/hash.h
* `Verif/Unordered/Reader`: internal/container/unordered/base.h, internal/container/unordered/traits.h, internal/container/unordered_map.h, unordered_map.h, utility.h
* `Verif/Unordered/Spec`: unordered_set.h
* `Verif/Unordered/Stable`: base.h, unordered_map.h
* `Verif/Utility/Model`: algorithm.h, heap.h, utility.h
* `Verif/Variadic/Model`: fwd.h, internal/raw/type_traits.h, internal/utility/sequence.h, internal/variadic.h, internal/variadic/fwd.h, internal/variadic/integer_sequence.h, internal/variadic/selector.h, internal/variadic/type_sequence.h, internal/variadic/visitor.h
* `Verif/Variadic/Tuple`: internal/tuple.h, internal/tuple/apply.h, internal/tuple/get.h, internal/tuple/make.h, internal/tuple/sparse.h, internal/variadic/visitor.h, tuple.h

## Where the code disagrees with a property

Every departure named here is itself a theorem (listed in MANIFEST.json under the property); the `_partial` theorems
cover the rest.

* **C06 k-ary heap operations establish and preserve the heap property** (partial): Proved for every element type swapped through a temporary, and for integers in heaps of two or more. Popping a heap of one integer sets it to zero (pop_heap_single_zeroes). make_heap on an empty range is undefined in the code (make_heap_empty_undefined).
* **C09 deque iteration visits exactly the contents in order** (partial): Fails in the code for full deques (deque_iteration_full proves that for every full reachable deque); proved for every non-full reachable deque.
* **C10 fixed-capacity vector and string edits agree with sequence edits** (partial): Proved over all in-capacity histories of push_back/append/insert/erase/pop_back/shrinking resize/clear/assign. Missing because the code is wrong there: erase of elements wider than one byte (memmove length not scaled), growing resize.
* **C100 Log lines reach the function installed when they are logged, whole and in order** (partial): Proved for every history of calls whose tags have no percent sign. Missing because the code is wrong there, each proved generally: the tag is used as a format, so a percent sign in it makes the call undefined, or two of them come out as one. Flags and widths in formats are not modelled; ESP_LOG_BUFFER_HEX expands to nothing.
* **C101 Streams over C files and through the virtual interface carry every character** (partial): Proved for every chain of insertions and every sequence of reads, over a C FILE described from the C standard. Missing because the code is wrong there, each proved for every chain: through the virtual interface single characters, newlines and fills never arrive (overflow drops its argument), and only eofbit tells; flush and endl do not call fflush, so with a fully buffered file nothing reaches the device until its buffer is full; readsome never reads from a file. get, peek and >> on a posix_streambuf do not compile.
* **C102 Walking a list in lockable memory leaves no node locked** (partial): Proved for every history: contents, positions, and the exact number of locks left on each node. Missing because the code is wrong there, each proved after every history: *it locks and nothing unlocks, so every pass over a list locks every node once more; --it leaves the node it came from locked and unlocks the one it reaches (at the first node: the invalid handle, and the result equals end()); --end() is undefined; += with a negative number is undefined; it - n calls itself for ever; front() and back() return addresses that no lock protects. The before_beginning flag is left out: list iterators never set it.
* **C103 Shared objects made in a memory pool go back when the last owner goes** (partial): Proved for every history of a careful caller on every pool. Missing because the code is wrong there, each proved after every history: the destructor of a pooled object never runs (Deleter destroys the shared pointer only, its room for the object is plain bytes); pool.destroy(p) on the only owner returns the slot twice, so that every later request answers it, and under handles gives their slot to the next object; copies of a handle made after p.reset() are not counted, so the slot goes back under them; construct() on an empty pool is undefined. That pool and pool_item survive the construction of the shared pointer over them is assumed.
* **C104 An unordered map can hold several elements under one key** (partial): Proved for every history without erasures of single elements, and with erasures for every history in which no insertion takes the slot of an erased element in front of elements of another bucket and erased elements have bucket numbers below 64 (C22). Missing because the code is wrong there, each proved generally: equal_range_exp gives the whole bucket, other keys and erased slots included, even for a key nothing is stored under; an insertion that takes an erased slot hides elements of other buckets; a bucket that reaches the end of the array makes insertion read (and possibly construct) behind it.
* **C105 A bip buffer can be shared by a main program and an interrupt handler** (partial): Proved for every schedule in which a call that an interrupt can cut into never takes the last byte: with the handler as producer, the main program takes the last bytes with interrupts masked; with the handler as consumer, it leaves a byte of the first region while an offer is in progress. Missing because the code is wrong there, each proved for every such buffer: a poll that drains the buffer loses an offer that arrives between its comparison and its stores, or lets two offers overwrite each other; a handler that drains the first region in the middle of an offer makes the offer be replaced by old bytes, makes delivered bytes be delivered again, leaves the buffer refusing everything for ever, or makes the offer be written past the array. One processor and accesses in program order are assumed; the handler is atomic, and the members are plain (not volatile) in the code.
* **C106 The optional checks and moves of vectors and strings do what they promise** (partial): Proved: the memmove option changes nothing for one-byte elements; a program over a growable vector that stops when an append reports failure does nothing undefined whatever the allocator refuses, and all answers are right. Missing because the code is wrong there, each proved generally: the memmove option corrupts containers of wider elements; over a fixed buffer the check never refuses and overruns as before; a refused append empties the vector, and trying again is undefined; emplace_back, insert and appending an array ignore the check; push_back of an rvalue and appending an array answer 0. With APPEND_TRUNC (builds without exceptions) the option does not compile.
* **C107 A queue between an interrupt handler and the main program loses, repeats and invents nothing** (partial): Proved for every schedule in which a handler that pushes does not fill the queue while a pop is between its two looks at the ends, and one that pops does not take the last element while a push is between its stores. Missing because the code is wrong there, each proved for every capacity and contents: filling the queue inside a pop loses all its elements (in_wipes); emptying it inside a push delivers a stale element for the new one (out_garbage) or makes the queue claim to be full of elements already delivered (out_replays, out_wrap_replays); and an empty queue is taken for a full one, so that elements are refused (in_refuses, out_refuses). One core, no reordering except of the two stores named.
* **C108 A block pool shared by an interrupt handler and the main program never gives a block to both** (partial): Proved for every schedule in which an interrupt inside a call of the main program gives back all it takes, last first. Missing because the code is wrong there, each proved after every such history: an allocation inside an allocation makes it dereference a null pointer (last block) or gives both the same block; a free inside an allocation or a free loses the block for good; an allocation inside a free leaves the block in the free list, to be given away again. One core, no reordering of stores.
* **C109 An object shared by several tasks is deleted once, when its last owner goes** (partial): Proved for any number of tasks whose calls are in critical sections, with copies that are made and destroyed at one go allowed at any time; no copies after the master's reset (C29), fewer than 65535 owners, the master is not destroyed. Missing because the code is wrong there, each proved in every such state: the count is not atomic, so of two overlapping copies one is not counted and the object can be deleted under an owner; of two overlapping releases one is not counted and the object is never deleted; two last owners that go together both delete it; a copy of the master overlapping its reset yields a handle to a deleted object.
* **C11 Overfull requests are refused without damage** (partial): Overfull requests do no damage only when assert is compiled in and the total fits size_type (the program stops); otherwise the code writes outside the buffer, proved for every such request.
* **C110 Text and arrays in program memory are read as they are there** (partial): Proved for every contents of program memory. Missing because the code is wrong there, each proved generally: text without a given size is cut at 256 characters, does not equal itself and equals its first 256 characters; copy(dest, count, pos) limits the count by the size and not by what is left after pos, so that what follows in memory is copied and counted too; test_container::operator[] multiplies the index by the element size twice; printing on Arduino ignores the given size. Strings of different lengths are ordered by length, as in C14. Operations that need the text in RAM (find, comparison with other strings, starts_with) do not compile for these types; far addresses are not modelled.
* **C111 Quantities and calendar fields add up with plain numbers** (partial): Proved for every history whose end the type can hold. Missing because the code is wrong there, each proved generally: months are not counted round the year (beyond December and before January the result is no month); an unsigned count compared with a negative number is less, by the conversions of C++ that the operators rely on.
* **C112 Writing with a time limit delivers the text, or says that it did not** (partial): Proved for every device that never has room for more than is left, and for every device that takes everything at once. Missing because the code is wrong there, each proved generally: every attempt offers the whole length from where the last one ended, so a device with room to spare receives what follows the text in memory, or memory is read where there is none; that the time is up is not told; without a pause only the clock bounds the attempts; with the default settings the pause is as long as the limit and there is no second attempt.
* **C113 Spans over the same memory agree with each other and with their bytes** (partial): Proved for every history of requests inside the spans, with any number of spans over one array. Missing because the code is wrong there, proved generally: subspan(offset) with the count left out keeps the size of the whole span, so that loops and writes below size() reach what follows in memory. first<count>() does not compile. Memory is assumed smaller than the largest size_t.
* **C114 A vector filled and emptied by an interrupt handler and the main program delivers each element once** (partial): Proved for every schedule in which a handler that runs between the load of the size and its store, or while elements are read and removed, takes back all it put in; between the two stores of a push it may leave elements. Missing because the code is wrong there, each proved for every vector: an element that comes in during a loop-and-clear is lost, one that comes in between back() and pop_back() is removed in place of the one read, one that comes in between load and store of the size is overwritten; a handler that empties the vector inside a push is given stale memory for the new element, or finds the old elements there again. One core, no reordering of loads and stores; a push into a full vector is undefined (C11).
* **C115 An interrupt handler that reads a string finds a text the program has made** (partial): Proved for every history of edits and every moment inside an edit that adds at most one character, removes the last or clears. Missing because the code is wrong there, each proved generally and exactly: the terminator is stored before the characters, so that inside a longer append a reader finds what older texts left in memory; inside an assignment it finds a mixture of both texts; and a handler that appends inside a push loses its text or its first character. Stores are not reordered.
* **C116 A linked list can be walked while it is edited** (partial): Proved for every history and every moment inside a push, pop, erasure, clear, or insertion of a node that is already linked; and for every loop while handlers add nodes and take out any but the one the loop is about to visit. Missing because the code is wrong there, each proved generally: an insertion publishes the node before it is linked, so that a handler does not find the rest, or never comes back; a replacement passes through a list with neither node; a loop whose node is moved starts over or goes on in another list. One core, stores are not reordered.
* **C117 An optional works as a mailbox between the main program and an interrupt handler** (partial): Proved for every schedule when the side that puts looks first, in both directions, also for the bit-field flavour whose value and flag share a word; for values of one word also when the handler does not look first (nothing is invented or repeated) and without a flag. Missing because the code is wrong there, each proved generally: a value assigned over another is read torn and the newer one lost; layer1::optional of several words is torn although everyone looked first; the bit-field flavour, assigned over a value, undoes the other side's reset or is undone by it. One core, trivially copied values, accesses are not reordered.
* **C118 An unordered map can be searched by an interrupt handler while it is edited** (partial): Proved for every array, hash and moment: other keys during an insertion are told as before or as after it; during an erasure every key that is not further on in the same bucket is told as before, and whatever is found is true; the erased key is gone from the first store on; a clear shows only elements that were there. Missing because the code is wrong there, each proved generally: the key of an insertion is found with the bytes its slot held before; keys behind an erased one in its bucket are missing until the slot is marked. One core, a key and a value are one store each, stores are not reordered.
* **C119 An interrupt handler can look at the top of a priority queue while it is edited** (partial): Proved for every push into a queue that is not empty, every pop of two elements, every erasure of an element that is not in front and the size in all calls. Missing because the code is wrong there, each proved generally: the first push tells that there is an element before it is stored; a pop of more shows the last element of the heap, or (integers, swapped with exclusive or) a value that is no element; pop_seen_partial lists everything a pop can show; so does erasing the element in front. One core, an element is one store, stores are not reordered; the vector has a fixed capacity.
* **C12 String search agrees with the first/last occurrence** (partial): find(ch) proved outright; the other searches proved under the stated side conditions, with the code's deviations (relative result, reads past the end, empty strings) proved as such.
* **C120 A callback can be replaced while an interrupt handler calls it** (partial): Proved for every schedule in which handlers call anywhere but between the destruction of the old callback and the clearing of the pointer, and assign where the main program is not assigning, moving or running the callback; for function objects that only point at a callable, for every schedule that does not null one between if(f) and f(). Missing because the code is wrong there, each proved for every state: a guarded call in that window runs a destroyed callback, an assignment in a handler destroys the callback the main program is about to run, destroys one twice or leaks one, and if(f) f() loads the pointer twice.
* **C121 An interrupt handler can copy and drop references of a linked ring** (partial): Proved for every schedule in which the handler drops its copy before it returns and does not come between the two stores of an insertion. The code breaks otherwise, each proved in general: in that window the ring is open and a visit follows an unset pointer; a copy the handler keeps while the main program copies the same reference falls out of the ring (the object is destroyed under it, its own destruction never ends); one kept while the main program destroys the next reference is unlinked in its place. Creating and moving are not split.
* **C122 An interrupt handler can look at a variant or an expected that the main program changes, and the reverse** (partial): Holds in every schedule of a program that changes the alternative with emplace and assigns single words only (looks_partial), and of a handler that puts single words of one alternative (reads_partial). The code departs otherwise, for all alternatives and values: assigning another alternative shows its words under the old index (assign_across), an assignment of several words is seen half done (assign_torn), and a look that a handler cuts takes the words of one alternative for another (read_across) or mixes two values (read_torn).
* **C123 The callback of emplace_with_notify may use the queue itself** (partial): Holds for every callback whose new element comes before none of those held (notify_partial). Otherwise the code departs: a callback that pushes leaves a new element that comes before all others stranded at the end but one, and top() is another, for every non-empty queue (notify_push_loses_order).
* **C124 An unordered container of N slots takes N elements** (partial): Proved for every set of keys of which no bucket gets more than fit before the next bucket's start, and so for any keys, in any order, out of N consecutive integers of any type on any target, unless their hashes wrap around in size_t (wrap_refuses). The code is wrong elsewhere, proved in general: one element more is taken from the next bucket's slots, and then every key of that bucket is refused, so five keys can make a map of any size refuse others.
* **C125 A stream's state, flags and width can be changed by the main program and an interrupt handler** (partial): Proved for every schedule when the main program's stores leave the handler's fields alone; for every schedule and layout: errors known between two calls of the main program stay known and none is invented; what a handler between load and store loses is stated exactly. Missing because the code is wrong there, proved generally: the fields share memory, so in the default layout setting the width forgets errors the handler has just reported, and where the whole state is stored at once every call does. One core, the handler is not itself interrupted, setf with a mask is two calls.
* **C13 starts_with and ends_with decide prefix and suffix** (partial): ends_with and the C-string forms proved outright; starts_with(string) decides the strict prefix relation, so it is wrong for equal strings; single-character forms are wrong on empty strings.
* **C14 String equality and compare are lexicographic** (partial): Equality and total order proved; the order is length-first, so it is lexicographic only among strings of equal length.
* **C15 string_view and span slicing stay inside the viewed range** (partial): Proved for requests inside the view; over-long requests are not clamped and subspan's default count overruns.
* **C16 to_chars writes the canonical numeral** (partial): Fails in the code for a signed minimum (undefined) and for a non-negative numeral exactly as long as the buffer (refused); proved for all other values, bases and buffers.
* **C17 from_chars parses exactly the longest numeral prefix** (partial): Proved for every non-empty text without a sign and every '-'+digits text not naming the minimum; the code departs from the property elsewhere, shown by the other theorems.
* **C18 to_chars/from_chars round trip** (partial): All values except a signed minimum, for which to_chars is undefined.
* **C20 Streaming num_get extracts the integer value incrementally** (partial): Chunk independence proved outright; value/failbit proved for every text except empty input and a '-' without digits, where the code does not set failbit.
* **C21 unordered_map lookups reflect the inserted pairs** (partial): Refinement to a finite map over every insertion history, for any hash and bucket count. Excluded, and proved to be exactly where the code departs: a lookup whose bucket runs to the last slot reads past the slots (undefined unless the memory behind is readable), full iteration always does.
* **C22 unordered_map erase removes exactly one key** (partial): Proved over every mixed history in which no insertion clobbers the mark of an erased slot still needed by its bucket (in particular all insertions before erasures, and collision-free histories). Elsewhere the code is wrong, each proved: duplicates or losses after erase-then-insert, undefined erase in the first slot, buckets longer than the mark can hold.
* **C23 unordered_set membership reflects inserts and erases** (partial): Proved over every history whose erasures hit the last element of their bucket. Erasing another element breaks the chain and loses later members (proved generally).
* **C25 forward_list::remove_if removes every match** (partial): Fails in the code when two neighbouring elements match (remove_if_adjacent_survives); remove_if_effect gives the exact result for every list, remove_if_partial the property for lists without adjacent matches.
* **C28 Pool handles convert back to the same block** (partial): Fails in the code for block indices of 128 and above (int8_t handle); the proved theorem is an exact characterisation (iff index < 128).
* **C29 shared_ptr deletes exactly once, when the last owner goes** (partial): Proved over every history of the 13 operations except two that the code gets wrong (proved as such for every reachable state): copying a handle whose master was reset does not count the copy, and self-assignment releases ownership. get/==/owner_before are right for every handle that points to something, whose object exists; on a null handle they dereference null, and a reset master still hands out its former object (both proved for every state).
* **C30 linked_ref ring destroys the object exactly once** (partial): Proved over every history of create/copy/move/destroy except moving a sole reference, where the code breaks the ring (move_sole, for every reachable state); weak references cannot be created (make_weak does not compile).
* **C31 bipbuffer is a byte FIFO** (partial): FIFO proved over every history whose polls stay within the contiguous bytes (or are refused); the code grants larger polls, proved for every reachable state (poll_overdraw, poll_negative).
* **C32 optional holds the last value and manages its lifetime** (partial): Proved over every history on any number of optionals, values and lifetimes, except self-assignment of a non-empty optional of a non-assignable type, which is undefined in the code (proved). The layer1 sentinel flavour cannot store its null value.
* **C33 expected holds exactly one of value and error** (partial): Proved over every history except copying or moving an expected whose current alternative is not copy constructible and assigning only explicitly convertible values, where the code leaves the storage without an object (proved).
* **C34 variant holds exactly the alternative index() names** (partial): Proved over every history and number of alternatives except emplace<I> of a type that occurs earlier, self-assignment of a non-assignable alternative and copying a non-copyable one, where the code is wrong (proved).
* **C35 Output stream buffers deliver all accepted characters in order** (partial): Delivered-in-order proved over every history for span, string and buffered output within capacity. Outside that the code is wrong, proved generally: bulk puts past a span overrun, string counts wrap, a buffered bulk put over the room reports lost characters as accepted, 0xFF is misreported.
* **C36 Input stream buffers deliver the source characters in order** (partial): Proved over every history of reads, bulk reads, pushbacks and seeks inside the text, for texts under 65536 characters (16-bit position) and, with signed char and the library's own traits, without 0xFF. Outside that the code is wrong: 0xFF reads as eof, long texts wrap and never end, negative bulk counts.
* **C37 istream getline/read/get/ignore obey their limits** (partial): read and ignore proved exactly. getline's full effect is characterised (getline_exact); it disagrees with the property: n instead of n-1 characters (overrun proved for every long line), failbit set whenever the delimiter is found.
* **C38 Formatted integer output pads to the field width** (partial): Proved for every integer type and value, base, case, width and adjustment, over any accepting sink, and for whole chains of insertions. Excluded because the code is wrong there (each proved): octal numerals of large unsigned 16/64-bit values, the signed minimum, fill characters outside the 6-bit field, no or both adjustments, left-adjusted characters, texts with a width.
* **C39 ios state bits report accurately** (partial): State bits proved over every history of setstate/clear/unsetstate. setf(f,mask) sets bits of f outside mask (proved), so that part holds only for f inside mask; the width field has 4 bits by default.
* **C42 hh_mm_ss splits a duration exactly** (partial): Proved for every duration below 256 minutes; hh_mm_ss_wrong proves the code wrong for every longer one (8-bit minute count).
* **C43 Calendar validity rules match the Gregorian calendar** (partial): is_leap tests only divisibility by 400 (exact characterisation of where it is right); September is given 31 days; ok() of single fields proved exact; full dates are not validated against the month length; dates from day counts use average months (closed form proved): month 13 occurs and days before the epoch are invalid.
* **C45 Name chooser resolves a streamed name** (partial): Proved for inputs whose first character begins a registered name of two or more characters (first such name considered); the code violates the property otherwise.
* **C46 promoted_type can hold both operands** (partial): Exact characterisation: fails in the code for an unsigned operand wider than the signed one.
* **C47 gcount reports the characters the last unformatted input took** (partial): Correct after complete reads, and characters stored after getline; get() never resets the count, ignore counts every character twice and a short read reports the number requested (all proved generally).
* **C49 Unordered containers compare equal exactly when they hold the same elements** (partial): Exact characterisation: equal iff the same keys appear in the same slot order; so equality implies equal key sets, but equal contents inserted in another order compare different, and values are ignored. For containers filled without crowding a bucket: equal iff each bucket got the same keys in the same order, so keys of different buckets may come in any order.
* **C50 to_string yields the decimal numeral** (partial): Proved for every type and value but the signed minimum (undefined, proved). Filling a caller's string is proved with one character to spare (or a negative value); an exact fit of a non-negative value keeps the old first character, proved for every such case.
* **C51 numeric_limits text lengths are right** (partial): length<10> and length<16> are exact except int64 decimal (one too many, proved). length<8> is one too small for uint16 and uint64 (characterised exactly).
* **C52 Character categories** (partial): is(mask,ch) characterised for every mask and character: sound always, complete for masks of space, digit, upper, xdigit; alpha and punct never match, lower matches only 'a' and is ignored with upper. isspace(int) accepts only the blank.
* **C54 time_point arithmetic is exact** (partial): History, comparison and difference are exact for durations that are whole clock ticks; time_point_add_truncates proves that adding a finer duration silently truncates it (the standard would not compile).
* **C55 Unit conversions preserve the quantity** (partial): Assignment and construction between different periods preserve the quantity for every offset; construct_same_period proves same-period construction wrong by exactly the target's offset, add_sub_neg_offset gives the exact error of the operators on offset units.
* **C56 get_from_percent interpolates** (partial): Exact where the intermediates fit the computed types; percent_descending_wrong and percent_offset_wrong prove the result wrong for max below min with an unsigned percentage and for offset units.
* **C57 The linked-list memory pool hands out each item to one owner at a time** (partial): Ownership and exhaustion proved over every history. count_free is right until the first deallocation and always right about zero; count_free_wrong characterises exactly when it is wrong afterwards.
* **C58 The handle heap keeps allocated regions apart** (partial): Disjointness, bounds and accounting proved over every history of allocations (multiples of the header size), frees, owner writes and maintenance outside compact mode. Elsewhere the code is wrong, each proved: exact fit at the list head is undefined, a remainder smaller than a header overlaps the region, maintenance after a merge dereferences null or loses a chunk.
* **C59 Streambufs buffered through a bip buffer deliver every character once and in order** (partial): Output: proved over every history for sinks that take everything; a sink that refuses makes the next put write past the buffer, one that takes part makes later drains send a null pointer or stale bytes (each proved generally). Input: single reads proved over every history, any source with partial reads; block reads repeat, never refill and overrun wrapped contents, and the first character after a refill is sign-extended (each proved).
* **C60 Scoped locks protect their blocks under every schedule** (partial): Proved for lock_guard under every schedule, over an assumed platform mutex. unique_lock is wrong, each proved: it never unlocks, and with try_to_lock its block runs even when the attempt failed.
* **C61 A function object owns its callable** (partial): Proved over every history without copies of const functions and without self-assignment, copying a named function being a transfer. The code is wrong there, each proved for every reachable state: copying empties the original, copies of const functions are deleted twice, self-assignment destroys the callable, a copy of an empty function claims to hold something.
* **C62 Formatted extraction reads numbers, characters and words** (partial): Proved for every text and every list of values, and end to end with formatted output. The code is wrong, each proved: at the end of the text failbit comes without eofbit, a lone '-' reads as 0, after overflow the position is wrong (and 0xFF then hangs), failed streams are still read and their strings emptied, NUL is dropped with the standard traits, an iterator on an exhausted buffer visits a phantom element, no base selected always fails.
* **C63 Parameter packs: looking up, selecting and visiting** (partial): Proved for every pack, evaluator and functor. values::contains is wrong for a value that occurs more than once, proved: it answers false.
* **C64 Tuples keep, apply and visit their elements** (partial): Proved for every list of elements and every history of assignments. The code is wrong, each proved: visit's answer is a bool that is true when nothing was accepted and false when the first element was; references to empty-class elements dangle; scalars of a default-constructed tuple are uninitialised; make_tuple keeps references to its lvalue arguments.
* **C65 Output iterators put what they are given** (partial): Writes are proved to be puts, for every sink and form. The code is wrong, each proved: failed() answers the opposite, forgets writes through it++ and is undefined before the first other write; back_insert_iterator's assignment never returns; filter_iterator maps instead of filtering; a string inserted through iterators with a width pads its first character only.
* **C66 Device stream buffers neither lose nor invent bytes** (partial): Proved for every interleaving and refusal pattern, over an assumed Arduino Stream/Print contract; without restriction where char is unsigned. The code is wrong with signed char, each proved: 0xFF is consumed and read as eof (so a read loop stops there), bytes from 0x80 differ from to_int_type under the standard traits, a delivered 0xFF is reported refused. Skipping backwards never ends. Pico driver: characters it drops are reported accepted, any read error but no-data returns an uninitialised character, and its input does not compile through the wrapper.
* **C67 Arrays are windows on their storage, maps look up the first entry, stacks are last in first out** (partial): Proved for every aliasing history, map history and stack history within capacity. The code is wrong, each proved: a longer initialiser list runs over the end; a map given fewer entries than its size compares indeterminate keys; back(), top() and pop() of an empty container are not refused. estd::array::back() does not compile.
* **C68 byteswap reverses bytes and flags are sets** (partial): Flags proved for every width and signedness. byteswap proved for 16 and 32 bit types and uint64_t; it is wrong for 8 bit types (always 0, or 0/-1), proved, and does not compile for int64_t.
* **C69 swap trades two values, exchange hands back the old one, pairs compare lexicographically** (partial): swap of two different objects is right for every type; an integer swapped with itself becomes zero (swap_self_zeroes, exact condition swap_correct_iff), so pop_heap of one integer loses it and a pair swapped with itself loses both members. Rvalues are copied into pairs, not moved.
* **C70 The handle-linked memory pool hands out each slot once** (partial): Proved for all histories; construct on an exhausted pool is undefined instead of failing (second half of v1_construct), a slot returned twice is handed out for ever, and a pool of capacity zero is undefined.
* **C71 Element accessors** (partial): Proved over every program that assigns no accessor to an accessor. `v[i] = v[j]` changes nothing, for every vector (wrong exactly when the elements differ); assigning to an accessor variable rebinds it. Accessors of moving memory are right under every schedule of compaction; stateful_locking_accessor leaves one lock per conversion to a reference. Differences of 32 bit offsets are wrong when negative.
* **C72 Growable vectors** (partial): Proved over every legal history while the allocator grants its requests. Missing because the code is wrong there, each proved in general: growth by a fixed amount (quadratic copying), a refused request loses the contents and makes the next append undefined, reserve below the size cuts elements off, an own element as argument dangles when growing, insert returns the old iterator, copies share the block, destruction leaks it, null-terminated and initializer-list construction write through the invalid handle.
* **C73 FreeRTOS mutexes, semaphores, queues, event groups and timeouts** (partial): Proved over every schedule, assuming the kernel calls behave as documented. Missing because the wrappers are wrong there, each proved in general: mutex(true) is born locked and has no owner; without asserts any task may unlock; a release at the maximum is lost silently; a desired count above the maximum gives a null handle; timeouts are rounded down, negative ones wrap to very long or infinite waits and those of 2^32 ticks or more to short ones; copies delete the kernel object twice.
* **C74 Lifetimes of vector elements** (partial): Proved for every history of the operations that construct at the end and destroy there on raw memory (layer1), and of those that only assign on an array of objects (layer2, layer3). Missing because the code is wrong there, each proved after any such history: on raw memory a copying push_back and an insertion before the end assign to cells without objects (or, for types that cannot be assigned, lose the objects moved from), clear, resize, erase and the vector's end destroy nothing, a growing resize constructs nothing; over an array pop_back ends a lifetime the array ends again and a moving push_back or emplace_back loses one.
* **C75 Function objects that refer to a callable** (partial): Proved over every history in which an object outlives those that refer to it, one-call callables are called once and then dropped, and at most one callable of each type is made static. Missing because the code is wrong there, each proved after any such history: a copy of an inline_function or thisify_function calls the original's callable, which may be gone; a second static_function of a type calls the first's callable; a one-call model destroys its callable in the call and again in its destructor. Calling an empty function is undefined rather than refused.
* **C76 Storage for objects is large enough and aligned** (partial): The exact condition is proved for each class and all types. Everything is large enough, except aligned_storage where the compiler has no alignas. Alignment is missing where the storage is an array of bytes: elements of layer1 vectors of class types, non-trivial optional and expected values, raw instances, map entries and bip buffer headers are aligned only if nothing need be; others only as far as the neighbouring member is. The iterators of a map with unaligned key and mapped types of odd size read the wrong bytes (map_second_misread).
* **C77 An exception thrown by an element leaves the container usable** (partial): Proved over every program in which exceptions come only where nothing had to be destroyed first, and from emplace of variant, and for deque from emplace_back. Missing because the code is wrong there, each proved after any such program: emplace of an engaged optional or of an expected, assigning another alternative to an expected or variant, and assigning a type without assignment leave a container that names a destroyed object and destroys it again; a deque's push_back and push_front and every vector insertion at the end keep the element that was never made (the deque may run past its array); each throwing emplace of typed_pool loses a block.
* **C78 An unordered map destroys each mapped value once and never shows one that is not there** (partial): Proved for trivial keys over every history of insert, insert_or_assign, erase and lookups, with the exact count of lost objects. Missing because the code is wrong there, each proved after any such history: insert_or_assign constructs over the living value; m[k] for a new key constructs nothing; clear() destroys in empty slots too; the map's end destroys nothing; an insertion that throws leaves an element without a value; gc_active and erase_and_gc swap with destroyed values; keys with destructors are overwritten on insertion and assigned to after their destruction on erasure.
* **C79 Extracting a bool reads back what was written and reports what is not a flag** (partial): Round trip proved for every list of flags. Outside well-formed texts the code is wrong, each proved for every such text: only one digit is looked at, a name cut short by the end is no error and stores nothing, any first character is taken before `rue`/`alse`, six characters that fit no name read past a name's end, and at the end of the text the two modes set opposite halves of failbit|eofbit.
* **C80 A forward list that owns its nodes keeps its values, its memory and their lifetimes in order** (partial): Contents and memory safety proved for every history and choice of addresses (remove_if of all matches only without neighbouring matches, C25). Missing because the code is wrong there, each proved for every history: no value is ever destroyed, erase_after and remove_if never give the node back, the end of the list gives nothing back; an exhausted allocator's invalid handle is dereferenced.
* **C81 Extracting a floating-point number stores the nearest representable value** (partial): Correct rounding proved for every binary format and every number whose digits make an integer within its precision (up to 15 digits for double, 7 for float), with the stream's position and state. Missing because the code is wrong there, each proved for all such texts: with 255 or more places the number is not divided at all; long fractions of a float become NaN; a second point moves the point; texts without digits are accepted as 0; exponents are not read; at the end of the text eofbit is not set. Longer numbers are rounded at every step: their relative error is bounded by the number of digits for every format (float_error_partial), for double and up to 250 digits by 1502/2^53.
* **C82 Vectors and strings work in memory that moves while it is not locked** (partial): Proved for every legal program and every schedule. Missing because the code is wrong there, each proved for every schedule: inserting a string into itself reallocates a locked block, or with room repeats the beginning; printing, comparing or searching an array that never had memory locks the invalid handle; data() locks for ever, so the array can no longer grow; a loop over iterators locks at every step and unlocks twice at the end. Growing resizes (which leave elements unwritten) and refused requests (C72) are outside.
* **C83 Optionals compare with values and hash by what they hold** (partial): The comparisons are proved after every legal history, hashes for optionals that have a value. Missing because the code is wrong there, each proved for all values: an empty optional is not less than any value, so < is not the order == and > belong to; hashing an empty optional reads an object that does not exist (for bit fields: equal empty optionals hash differently); != of two monostates is true.
* **C84 A quantity prints as its count and the name of its unit** (partial): Text, formatting and error state proved for every accepting sink. Missing because the code is wrong there, each proved for every value concerned: numbers between -1 and 0 lose their sign; a width is used up by the whole part; the base stays decimal; whole numbers of 2^53 hundredths and more print digits after the point, from 2^63 hundredths on (and from -2^64 down), and for infinities and NaN, the behaviour is undefined; 0.29 prints as 0.28; no quantity with period giga can be printed; 1000 and 1024 bytes print alike.
* **C85 Visiting a variant shows the object it holds; making one from a value stores that value** (partial): Proved for visit_index after every history. Missing because the code is wrong there, each proved for every case: visit shows the functor every alternative in turn, live or not, so a functor that reads is undefined unless alternative 0 is held and accepted, and one that goes by type gets the same answer whatever is held; a functor that declines after putting in a later alternative is called again; a value becomes the first alternative that can be made from it even when a later one is of its own type, and a variant made from a value that fits nothing is silently valueless.
* **C86 A software timer calls back only when asked to run, and never after it has been deleted** (partial): Proved for every schedule of a program that keeps to Spec.legal. Missing because the code is wrong there, each proved after every such schedule: a destructor whose request finds the queue full for a tenth of a second leaks the timer for ever, and an auto-reload timer goes on calling back; the callback can run between the destructor and the deletion; a static timer's memory is gone before the timer task deletes it; free or a copy followed by the destructor deletes twice; a period below a tick, and any use of a timer for which there was no memory, stops the program.
* **C87 A blocking stream waits for the text, a non-blocking one says that there is none yet** (partial): Words and characters proved for every schedule of arrivals; integers when the numeral comes in one piece. Missing because the code is wrong there, each proved generally: a blocking stream does not wait inside a number (the digits that are there make one number, those that come later another), nor in get(); on a non-blocking stream characters that arrive between two calls of the buffer end the word with eofbit, and a second attempt without clear() sets failbit and eofbit; a character shown as end of file (0xFF) ends every word in front of it and is never taken.
* **C88 Clocks measure elapsed time and sleeping lasts as long as asked** (partial): Elapsed time and waiting for it are proved for every reading and every number of wraps, sleeping on the pico for whole microseconds. Missing because the code is wrong there, each proved generally: the clocks say is_steady but go back when the counter wraps, and a wait for a time point past the wrap is over at once or lasts a whole turn; sleep_for rounds down (on Arduino it is short unless the duration is a whole number of milliseconds, on FreeRTOS whenever the call is not made exactly on a tick), wraps for long durations, and sleeps 49 days for a negative one.
* **C89 Type traits classify every type as the C++ standard does** (partial): Proved for all types with these exceptions, where the code is wrong, each proved for every type concerned: unions are classes (and no type is a union), and bases of themselves; variadic functions are not functions, because the specialisations for them are under a macro nothing defines, and pointers to such members are data member pointers; nullptr_t, member pointers, char8_t and variadic functions are enumerations; char8_t is not integral; every type that is not arithmetic is unsigned.
* **C90 Type transformations give the type the C++ standard says** (partial): Proved for all types with these exceptions, where the code is wrong, each proved for every type concerned: references to qualified void and qualified functions, and rvalue references to void, do not compile; noexcept and variadic functions do not decay to pointers, qualified functions do not compile in decay; add_pointer leaves noexcept functions alone; make_signed accepts bool and nullptr_t; make_unsigned gives two signed types of one size the same type, and does not compile for qualified types, characters and enumerations.
* **C92 Erasing while iterating visits every element once and keeps the others** (partial): Proved for every map and predicate when the slot behind the array can be read and the one in front of it does not look like an erased element. Missing because the code is wrong there: looking for the next element reads the slot behind the last one, so the loop is always undefined when it cannot be read.
* **C93 Every observer of a subject is notified exactly once, in order** (partial): Proved for every program with subjects whose observers do not have both functions for an event type. Missing because the code is wrong there: an observer with both on_notify(n) and on_notify(n, context) cannot be notified with a context, which does not compile for any subject listing it.
* **C94 Editing and assigning priority queues keeps their order** (partial): Proved for every reachable state of queues whose comparators order alike. Missing because the code is wrong there, each proved generally: emplace and emplace_with_notify return the last cell of the array, which is another element whenever the new one comes before all others; erase and erase_if of the only element are undefined; assignment leaves the comparator, so a queue assigned from one of another order is out of order.
* **C95 A handle descriptor tells the truth about the memory it describes** (partial): Proved for every history on fixed buffers with requests that fit, and on blocks while requests succeed. Missing because the code is wrong there, each proved generally: a descriptor of a fixed buffer grants every request, however large, and (without assertions) every resize; an unbounded buffer has size 255; a request that fails leaves size() at what was asked for; a resize that fails, or a second allocate, loses the block for every further history; free() (which compiles with no allocator of the library) leaves the descriptor claiming the block. construct, destroy and copy_into do not compile for allocators without state; neither do the array constructor of layer2 and the initializer_list constructor of layer3 (fixed.h:400, 425).
* **C96 Strings that share characters show one text, and changing a string never depends on where the added characters lie** (partial): Proved for every memory and history of texts that fit. Missing because the code is wrong there, each proved generally: inserting a piece of the string itself that straddles or follows the position inserts other characters; assigning a string a tail of itself cuts the text short, mangles it or is undefined; every layer3 string made from a string has room for one character less; a layer2 string made from a string writes past the other's buffer when its own capacity is larger; assignment between two layer2 or two layer3 strings of one type makes the left one another name for the right one's characters; const_string::empty() says the opposite. operator=(private_array) (internal/string.h:356-361) calls itself and is not modelled.
* **C97 stol, stoul and stoi read the number a string starts with** (partial): Proved for every terminated text that starts with a number the type holds, over the C standard's description of strtol and strtoul. Missing because the code is wrong there, each proved for every such text: a number that does not fit is replaced by the nearest long (or for stoi by its low bits) without a report, a text without a number gives 0, and a string that is not terminated is read past its end.
* **C98 Objects that own other objects through shared pointers live exactly as long as something owns them** (partial): Proved for every correct program: reference counting agrees with a heap that never deletes, and exactly what has no well-founded owner is deleted, once. Missing because the code is wrong there, each proved in every such state: `l = l->next` where l is the only owner is undefined, since the old object is released before the new pointer is read; circles are never deleted and there is no weak_ptr. Copies of a handle whose master was reset are not counted (C29), so such copies are excluded.
* **C99 Text accepted by a check is converted to the number it spells** (partial): Proved for every terminated text. Missing because the code is wrong there, each proved generally: the check for int accepts any number of digits, and converting a number that is no int is undefined, and it refuses every negative number; unsigned char and unsigned short accept numbers that do not fit and keep their low bits; legacy::from_chars does not look at the end of its range, needs a terminator, accepts white space and a plus sign, and overwrites the value on errors. float and double (strtof, strtod) are not modelled; the check, toString and legacy::from_chars are compiled only if their FEATURE_ESTD_STRING_LEGACY macros are set.
