# Formal model of foodtiny/native in Lean 4

## 1. Method

The C++ sources in `/repo/library` are read as text and modelled, function by
function, as total computable Lean functions.  Every model definition carries
a comment with the file and lines it models and the simplifications made.
For each area there are up to four files under `lean/Verif/<Area>/`:

* `Model.lean`  – the code as it is (bugs included);
* `Spec.lean`   – the small independent specification (written without
  reference to the model's helpers);
* `Lemmas.lean` – auxiliary lemmas;
* `Props.lean`  – the property theorems listed in `MANIFEST.json`, each beside
  an `example` showing that its hypotheses are met by a concrete case.

### Outcomes

A C++ call is modelled as `Outcome α = ok a | throw e | ub`:

* `ok a`    – normal return;
* `throw e` – a C++ exception, `e` names its class (`Exc`);
* `ub`      – undefined behaviour, out-of-bounds raw access, use of an
  indeterminate value, or division overflow.  It is never assumed away.

Diverging loops are modelled with fuel (`none`/out-of-fuel is separated from
the three outcomes) and termination is a theorem where it holds; where the
loop really diverges we prove that no fuel suffices.

### Platform

x86-64 LP64 Linux, gcc, `-std=gnu++11`, no `-fwrapv` (`CMakeLists.txt`).
`char` signed 8 bit, `int` 32, `long`/`size_t` 64, `wchar_t` signed 32.
Signed overflow and shift counts >= width are undefined in strict C++.
Definitions that rely on them are parametrised by `Sem`:

* `Sem.strict` – overflow / oversize shift gives `ub`;
* `Sem.wrap`   – two's complement wrap-around, shift count taken modulo the
  width (what x86 instructions do, and what gcc emits when it does not
  exploit the undefinedness).

Properties are proved for `Sem.wrap`, and the exact set of arguments on which
`Sem.strict` is `ub` is proved separately.

## 2. Trusted base

* Lean 4.33.0's kernel and the three standard axioms `propext`,
  `Classical.choice`, `Quot.sound` (checked with `#print axioms`; see §5).
* No own axioms, no `sorry`, no `native_decide`, no `bv_decide`.
* The reading of the C++ text: nothing is executed, and the correspondence
  between a definition and the lines it cites is by inspection.
* Behaviour of the C/C++ standard library as documented: `std::string`,
  `std::vector`, `std::list`, `std::unordered_map`, `std::set`,
  `std::make_heap/push_heap/pop_heap`, `std::atomic`, `std::mutex`,
  `std::condition_variable`, `strtoul`, `printf` conversions; `malloc` never
  fails; libcuckoo / moodycamel operations are atomic.

## 3. Plan per property

* **C01 Base64 basic/URL encode-decode round trip** – `Base64`: encoder/decoder loops over byte lists modelled with explicit index cursors; round trip by induction on the number of 3-byte groups plus the three tail cases.
* **C02 Base64 encoder agrees with RFC 4648** – `Base64`: RFC 4648 spec over the bit string of the input; refinement of the loop.
* **C03 Base64 decoding never touches memory outside its arrays** – `Base64`: decoder on arbitrary lists with checked array accesses; prove outcome is never `ub`/`outOfRange`.
* **C04 MIME Base64 line structure and round trip** – `Base64`: MIME encoder with line counter; line structure proved; decoder defect (indexing the source with its own bytes) shown by witness.
* **C05 URL encoding round trip** – `UrlCodec`: byte-list model with the C-string (NUL-terminated) view; induction.
* **C06 URL-encoded text contains only URL-safe characters** – `UrlCodec`: alphabet by cases over a byte, injectivity from the round trip.
* **C07 URL decoding of arbitrary input is memory-safe** – `UrlCodec`: decoder reads modelled with explicit terminator; no `ub`, length bound by induction.
* **C08 Exact integer addition, subtraction, negation, increment and decrement** – `MathOps`: BitVec 32/64 with `Sem`; `omega` on `toInt`.
* **C09 Exact multiplication and narrowing** – `MathOps`: real checks modelled; witnesses for missed overflows; partial theorems for the ranges where the check is right.
* **C10 Floor division and modulus laws** – `MathOps`: C++ truncating division on Int; laws by `omega`/division lemmas.
* **C11 Integer text round trip** – `IntText`: digits by repeated division, `strtoul` model; round trip by induction on digits.
* **C12 Integer parsing rejects malformed text** – `IntText`: `strtoul` prefix semantics; refuted with witnesses; partial: acceptance of well-formed text.
* **C13 Integer bit-twiddling operations** – `IntBits`: BitVec 32 functions; specification by `getLsbD`; proofs by bit extensionality.
* **C14 Integer unsigned arithmetic** – `IntBits`: BitVec 32; specification with `toNat`.
* **C15 Long bit-twiddling operations** – `LongBits`: BitVec 64; some operations refuted (signum, reverse, rotate), others proved.
* **C16 Long text round trip** – `LongText`: hex digits round trip; `toString` static-cache defect refuted.
* **C17 BitSet behaves as a set of indices under single-bit operations** – `BitSet`: words list of BitVec 64 + wordsInUse; abstraction to `Nat → Bool`; refinement over operation histories.
* **C18 BitSet range operations** – `BitSet`: first/last word masks; refinement; `flip(from,to)` refuted at multiples of 64.
* **C19 BitSet logical operations** – `BitSet`: word-wise loops; refinement; `intersects` out-of-range refuted.
* **C20 BitSet queries** – `BitSet`: scans; least/greatest specification.
* **C21 BitSet serialisation and equality** – `BitSet`: invariant `words[inUse-1] ≠ 0` gives canonical form; extensional equality.
* **C22 Arrays.sort sorts** – `ArraysSort`: array as list with checked access, explicit stack; sortedness via segment invariant, permutation via swaps, termination measure.
* **C23 Arrays.binarySearch finds keys** – `ArraysSearch`: loop with fuel; soundness, in-bounds, termination; completeness refuted with witness and characterised.
* **C24 Arrays copy, fill and equality** – `ArraysCopy`: lists with checked access.
* **C25 ArrayList is a sequence** – `ArrayList`: list model; step function over operations; refinement to spec sequence where the code agrees, refutations elsewhere.
* **C26 Vector is a sequence** – `VectorModel`: as above with `capacityIncrement` possibly indeterminate.
* **C27 Stack is last-in first-out** – `VectorModel`: stack as vector; LIFO by induction; `search` refuted.
* **C28 LinkedList is a double-ended queue** – `LinkedList`: list model, `ub` on empty accesses.
* **C29 PriorityQueue always serves the greatest element** – `PriorityQueue`: vector + heap predicate, `make_heap`/`pop_heap` as the libstdc++ algorithms; induction over histories; `remove` refuted.
* **C30 HashMap is a finite map** – `HashMap`: association list with unordered_map contract; refinement; `put` overwrite refuted.
* **C31 HashMap equality** – `HashMap`: refuted by default values; partial for maps with non-default values.
* **C32 String search** – `JString`: byte lists; `std::string::find` contract; refuted corners (empty pattern, NUL, lastIndexOf).
* **C33 String split and join** – `JString`: loop with fuel; join∘split identity, divergence for the empty delimiter.
* **C34 String replace** – `JString`: as above.
* **C35 String ordering and equality** – `JString`: strcmp model; refuted for embedded NUL, proved for NUL-free strings.
* **C36 String hash consistency** – `JString`: state (bytes, cached hash); history invariant; stale cache refuted.
* **C37 String slicing** – `JString`: index guards with the unsigned `size()-1` underflow.
* **C38 StringBuilder edits** – `StringBuilder`: buffer with capacity, checked memmove; refinement over histories.
* **C39 StringBuilder search** – `StringBuilder`: `indexOf` refuted by witness; sound/complete part isolated.
* **C40 StringBuffer edits are memory-safe and correct** – `StringBuffer`: raw buffer with checked access; witnesses of out-of-bounds; partial safe subset. Assignment of a buffer to itself copies the new, zeroed block onto itself, which is refuted for every text that is not all NUL.
* **C41 Random is the documented linear congruential generator** – `Random`: BitVec 64 LCG state; determinism, spec over Nat mod 2^48.
* **C42 Random bounded outputs stay in range** – `Random`: bounded draw with rejection; range and counting argument.
* **C43 Random is safe to share between threads** – `RandomConc`: threads × shared seed small-step relation; invariant over monotone history of successful CAS.
* **C44 Semaphore permit conservation** – `Semaphore`: small-step interleaving semantics of the lock-delimited sections; conservation invariant.
* **C45 Semaphore never over-grants** – `Semaphore`: refuted by an explicit two-thread schedule; timed path proved atomic.
* **C46 Concurrent map removal happens once** – `ConcMap`: atomic-op interleavings; double removal witness; safety facts proved.
* **C47 UUID text round trip** – `Uuid`: 128-bit value, hex digits; round trip by digit lemmas; depends on C16/C33 models.
* **C48 UUID ordering, equality and fields** – `Uuid`: BitVec 64; variant refuted under both semantics.
* **C49 Binary UUID pack/unpack and parse/unparse** – `LibUuid`: 16-byte lists; pack/unpack and text round trip.
* **C50 MD5 streaming equals one-shot RFC 1321** – `Md5`: full compression function and streaming state; RFC spec separate; chunking by induction.
* **C51 SHA-1 streaming equals one-shot FIPS 180** – `Sha1`: as above.
* **C52 MessageDigest lifecycle** – `Digest`: lifecycle state machine; second digest refuted; single-digest part proved.
* **C53 MediaType parse/format and compatibility** – `MediaType`: string pairs; symmetric compatibility refuted; round trip for trimmed texts.
* **C54 Dates are independent values** – `DateModel`: shared broken-down-time buffer; parametric `localtime`; aliasing refuted, ordering proved.
* **C55 Small numeric wrappers** – `Wrappers`: BitVec 8; string lower-casing.
* **C56 Character code point arithmetic** – `CharacterModel`: Int code points; `digit` refuted for other radices.
* **C57 Absolute value, maximum and minimum** – `MathOps`: BitVec of any width; `toInt` lemmas; the smallest value separately.
* **C58 replaceFirst** – `JString`: specification by the first split of the text; the exception for an occurrence at the end refuted for every such text.
* **C59 split with a limit** – `JString`: loop with a counter; refinement of the list of pieces.
* **C60 Integer.decode** – `NumText`: prefix grammar (sign, 0x, #, 0) as a specification; witnesses for the mishandled literals.
* **C61 Long renderings in powers of two** – `NumText`: digits of the unsigned value; octal refuted for every negative value.
* **C62–C64 BitSet hash, text and cached text** – `BitSet`: hash as a fold over words; text as a join of the members; ownership of the cached text as a state (none / owned / freed).
* **C65 Code points of char arrays** – `Character`: index arithmetic on lists with checked reads.
* **C66 StringBuilder queries and capacity; C67 Vector capacity policy** – growth arithmetic on `Int` with `chk32`, invariants by induction over histories.
* **C68 StringBuffer search** – `StringBuffer`: first/last occurrence specified by prefixes of the text.
* **C69–C73 Random** – `Random`: state = seed, flag, saved number; the floating point functions are a parameter. Full period by the Hull–Dobell argument on 2^48 (`Period.lean`); threads as atomic loads and compare-exchanges (`Conc.lean`).
* **C74, C75 Semaphore waiters and locks** – `Semaphore`: program counters per thread, one step per access to the mutexes, the condition variable and the counter; invariants over all schedules, witnesses for the lost wake-ups.
* **C76, C77 UUID text and variant** – `Uuid`: refutations for whole families of texts and values.
* **C78–C80 libuuid** – `LibUuid`: packed bytes, clock state machine (`last`, `adjustment`, `clock_seq`); distinctness by an order on (sequence, register) pairs.
* **C81 MD5 update of any array; C82–C85 MessageDigest** – `Md5`, `Sha1`, `Digest`: RFC 1321 and FIPS 180 as specifications on whole messages; lifecycle as histories of calls; `Copy.lean` for the shared engine pointer.
* **C86–C88 MediaType** – `MediaType`: grammar of texts as predicates on lists of characters; compatibility as a specification on pairs of parts.
* **C89–C96 Wrappers** – `Wrappers`: object = value and cached text; histories of operators; parsing through the `strtol`/`sscanf` model.
* **C97, C98 Concurrent map** – `ConcMap`: each call is a sequence of atomic table operations; every answer is the specification's answer in a state during the call.
* **C99–C106, C117 Date** – `Date`: proleptic Gregorian calendar (`Calendar`, `CalSpec`), the static `struct tm` of the C library as a shared field, `parse` as the loop over the text with its nine registers.
* **C107–C114 The table beneath the concurrent map** – `Cuckoo`: libcuckoo's table with its buckets, old buckets, locks' counters and flags; one step per critical section; a simulation of a plain map gives linearizability (`Explains`), and the invariant behind it contents, size, `forEach` and `containsValue`. `clear`, copies and refused puts have their negations.
* **C115, C116 Spinlocks** – `Cuckoo/Locks`: the order in which locks are taken; ordering gives progress, and a nested call is stuck for ever.
* **C118–C124 Thread** – `Thread`: one thread object over the semaphore model, any number of callers and the operating-system threads that `start()` makes; a step per access to a field. `join()` by an invariant that keeps the semaphore dry until the function has returned; permits by conservation; liveness, number of runs and number of the thread by counting agents in a run; the destructor by an invariant on who is left.
* **C125–C133 ConcurrentLinkedQueue** – `LinkedQueue`: the lock-free queue beneath the class, one step per atomic access, any number of threads; blocks, block index, ring growth, tickets and free list. Invariants: the accounts of tickets (`Tickets`), the block index and its growth (`Index`), the memory of blocks (`Blocks`), and a matching of the log of finished calls with the places in the producers (`Log`). Lone polls and counts by what they know at each step, ends of calls by a measure, calls in turn by a simulation of per-thread queues. Overlapping polls, counts beside other calls, one order for all threads and the unwritten members have their negations.
* **C134–C144 Double, Float and the floating point functions of Math** – `Floats`: a value is a sign and a number of smallest units (`Flt`), the formats are parameters (`f64`, `f32`) and every theorem is generic in them where the code is. The text of binary digits that `doubleToLongBits` builds is modelled with its buffers; `Lemmas` and `Bits` compute it for every value, `Ieee` relates the result to the IEEE 754 layout (`Spec.ieee`, written from the standard), `Order` to the order of `Double.compare`. Where the code is wrong (first binary place dropped from 1 on, tiny values, negative bits, minus zero, undefined behaviour from 2^30, swapped constants, `ulp`, negative halves) the negation is proved for all such values.
* **C145–C152 Texts of Double and Float** – `FloatText`: `Spec` says what decimal text denotes (`Denotes`), what the value nearest to a fraction is (`Rounded`, ties to even, overflow) and what six digits are (`SixDigits`). `Lemmas` relates printing and reading of digits to them, `Nearest` proves the rounding of parsing, `Round` the round trips through 15 places, `Short` the texts of `%g`, `Survive` which decimals are printed again. Properties that fail are refuted for whole ranges of values.
* **C153–C158 The semaphore of the blocking queue** – `LightSema`: threads take single steps on `m_count` and `m_sema`. One invariant balances two accounts in every schedule: `m_sema`, the posts to come and the count below zero are the waiters; what is held, free or under way is what was put in. Safety, no lost wake-ups and results follow from it. The timed wait that need not end is refuted by a state in which every number of steps leads round the same loop.
* **C159–C164 The blocking queue** – `BlockQueue`: on top of `LightSema`, with the inner queue as a bag. The invariant adds the account of items, so that whoever is past the semaphore finds an item.
* **C165–C170 The pool of free blocks** – `FreeList`: one step per access to shared memory. The invariant gives every block a place (owned, being added, waiting for its last reference, on the list, taken), says that its count is the number of threads that hold a reference and one for the list, and that no next field changes while a reference is held; this excludes the ABA problem.
* **C171–C178 The table of producers** – `ProdHash`: one step per access to shared memory, any hash function. The invariant lists the threads in the order in which they counted themselves; a key in a table belongs to a thread whose rank in that list is below three quarters of the capacity, so by counting a slot is free. Keys are never removed and only their thread inserts them, so a search that meets a free slot has not missed the key. Progress by a measure (with a producer) and by phases (first call); the waiting on a stopped thread is refuted with 24 threads.
* **C179–C187 Arrays, the start of a program, objects, enumerations, throwables, sets** – `Kernel`: histories of calls on an array against a growing list, with the conversion of sizes to `int`; a loop over an array as a recursion that carries the array the body changes; `Application` as a function of the memory behind `argv` and of how the program ends; a set as a sorted list under any strict weak order, its content by an invariant that names the first added of each kind. The stubs, the comparison of hash codes, `instanceof` and the unset cause are refuted.
* **C188–C189 URLs and connections** – `Net`: members without a value are `none` and reading them is undefined; histories of assignments by induction; what would parse a URL is commented out in the code, so the main claim is refuted for every text.
* **C190–C192 Formatting dates** – `DateFormat`: on the model of `Date` with its shared fields, with the environment variable `TZ` and the one shared zone object; the C library's zones and conversions are parameters, so the theorems hold for all of them.
* **C193–C198 Queues with a producer token** – `TokenQueue`: one step per access to shared memory, any number of consumers, any block size, every failure of memory. The invariant has the ring of blocks as a cycle, the entries of the index for the blocks between head and tail, and the optimistic counters with a ticket per call, as in `LinkedQueue`. A failed `enqueue_bulk` may forget blocks that it linked; the properties are proved for histories without such a failure and refuted with one. Wait-freedom by a measure, for all histories.
* **C199–C204 `String.format`** – `Format`: the regular expression as an automaton, proved to find the leftmost text of the language that the pattern describes; the loop and the recursion over the arguments; `snprintf` for integers, characters and texts as ISO C defines it; the buffers of 128 bytes. A format is described by a relation that reads it from the left; induction on the format. What the C library prints for floating point numbers and addresses is a parameter.
* **C205–C206 The end of a queue** – `LinkedQueue` (`EndModel`): the destructor as a function of a state in which nobody is calling. The invariant of C125 is extended by where every block is (free list, some producer's index, some thread's hands) and by that a block all of whose elements are gone is about to leave the index; the loop over the elements by induction, its blocks against the index of the invariant.
* **C207–C208 The end of a producer token** – `TokenQueue` (`EndModel`): the destructor of `ExplicitProducer`. Two more invariants: the newest entries of the index are those of all blocks, one after the other (this is what a failed bulk call breaks), and an element below the head is marked or a consumer has it. The search for the block that is half empty, the walk around the blocks and the loop in each by induction; what is destroyed telescopes to what was sent and not taken. That all blocks stay in one circle is an invariant of its own that also holds when calls fail.
* **C209–C212 StringBuffer shared by threads** – `StringBuffer` (`SyncModel`): every method as a program of single accesses to the fields `original`, `currentLength`, `currentCapacity` and the block, with the mutex; threads interleave these in any order. Each program run without interruption is shown to refine the sequential model of C40 (a simulation, so that the two cannot drift apart); an invariant says that who touches a buffer holds its mutex, which gives linearizability, freedom from races and from deadlock for the methods that lock; witnesses with schedules for those that do not. C212 adds the sizes over all threads to rule out overflow.
* **C213–C216 Time-based UUIDs of many processes** – `UuidClock`: `get_clock` as a machine of processes and threads that share the clock file, its lock (`flock`, which excludes processes and not threads) and, within a process, the static variables; processes may be killed between any two steps. The texts written to and read from the file are modelled (`fprintf`, `fscanf`), with a proof that reading what was written gives the state back whatever stands behind it. Invariant: the file holds the last state of a chain of `try` steps over a sublist of the clock readings; saved results are those of the chain, and each is returned at most once. Distinctness then follows from that of the chain (C80), since fewer readings of a fine clock are a fine clock.
* **C217–C219 Upper and lower case** – `CaseText`: the conversions between bytes and wide characters of String.cpp with `codecvt_utf8<wchar_t>` of libstdc++, both versions (with and without surrogates); `towupper` and `towlower` are parameters. Texts are specified by Lean's own UTF-8 encoding of characters. Reading what was written, by induction over the text; what is read can be written. The users (`parseBoolean`, encoding names) follow.
* **C220 The pool of free blocks does not stop** – `FreeList/Progress`: a measure of four parts that every step of a call lowers, unless it ends the call: threads outside a call, how often the head can still change, how often the count of the block at the head can still change while the head stays, and how far every thread is while neither changes. So the pool is lock-free with a bound that depends on the number of threads alone. Refuted for a single call: a schedule of 22 moves that leads back to the same state, in which one thread stays inside its call.
* **C221–C224 The queue on the memory of C++** – `Weak`: the release and acquire memory of C++11 as an abstract machine with views (`Memory`), and on it `enqueue` and `dequeue` of one producer with the memory orders that the code names. The threads may also read, write and replace the values of other locations, with any order, also inside calls. Invariant: a list of tickets (`dequeueOptimisticCount`), each undecided, passed, gone on or failed, and a list of the holders of `headIndex`; for every ticket that passed, its number is below the tail it saw plus the failures among earlier tickets, so the largest ticket that went on saw a tail large enough for all, and the acquire-release chain on `headIndex` carries that knowledge to the holder of every index. From it: hand-over of all that happened before the `add`, no race, once, in order. C224 is refuted by a run in which a stale `dequeueOvercommit` is read.
* **C225 Places of elements that are used again** – `WeakReuse`: `enqueue` and `dequeue` on the memory of `Weak`, with the blocks, their counters of taken elements, the free list with its reference counts and the initial pool, all with the memory orders of the code. Refuted by a schedule of 1163 moves that the kernel evaluates: `set_empty` counts with `memory_order_release` only, so the thread that counts the last element does not synchronise with the others that took elements of the block, and the adding thread that gets the block from the free list writes to a place whose former use did not happen before. (The acquire fence at the beginning of a later poll would; the schedule has the other thread count its element after that fence.) C223 is the part that holds: places before their first reuse. What is true (`FreshProps`): while fewer than 192 elements were added (the six blocks of the pool), or as long as no block was emptied, every move of `WeakReuse` is one of `Weak` or none (`Rel`, `Inv`, `Sim`): element `n` is at place `n % 32` of block `n / 32`, tables, counters and the free list are locations of the rest of the program, and the theorems of `Weak` carry over. The invariant says which blocks the adding thread got and listed, that whoever may take an element knows its entry in the table, and that the counter of a block is the number of its elements that were counted.
* **C226 The queue of many adding threads on the memory of C++** – `WeakMany`: every thread has a producer of its own and polls any producer, in any order. Each producer `p` is simulated by the machine of `Weak` (`Rel`, `Sim`): the locations of other producers become locations of the rest of the program, calls on other producers become reads, writes, increments and fences of threads that are outside. The theorems of `Weak` then carry over to every producer.
* **C227 Races of the concurrent map** – `WeakLock`: the spinlocks, the hash power and the cells that a lock guards, on the memory of `Weak` with the orders of the code (`test_and_set` acq_rel, `clear` release, hash power acquire and release). False: `size` reads the counters without locks. Without `size`: an invariant (`Inv`) says that a free lock has the knowledge of all that was done under it in its last write, and a holder has it in its view.
* **C228 Who works on a bucket** – the same invariant; the hash power that a call holds after its check is the newest, since it is changed only with all locks, and whoever gets a lock knows the last change. What a thread knows it keeps (`Grows`). `C115_memory` shows on this memory that calls which take their locks in order do not block each other (`Order`).
* **C229 IEEERemainder** – `Remainder`: the four roundings of `x - round(x / y) * y` on the values of `Floats` with `nearest` of `FloatText`. False in four ways, each with a witness. Where both values are multiples below 2^52 of one power of two, the rounded quotient stays on its side of every half (its error is below the distance `1 / 2b`), and product and difference are exact.
* **C230 Permits hand over what is known** – `WeakSema`: the calls of `LightSema` once more, with `m_count` and `m_sema` on the memory of `Weak` and the memory orders of the code (loads relaxed, taking acquire, `signal` release, giving up after a time-out relaxed), and with any other accesses of the program in between. The invariant says where every permit put in is: in the count, in the POSIX semaphore, with a `signal` that has still to post it, or taken. As all changes of the count are read-modify-write operations, its newest write carries what all that put in permits knew; a post carries what its `signal` knew. `C153_memory` and `C154_memory` show that no permit and no wake-up is lost on this memory either, although loads may read old counts.
* **C231 Random bytes** – `RandBytes`: `random_get_bytes` with the kernel as a parameter (which devices open, what each `read` gives, clock, process number) and `rand` as any function of its seed. `Delivers` says, apart from the code, that a device gives certain bytes in pieces with at most 17 failures in a row; by induction on it the loop fills the buffer with them. The change by `rand` is its own inverse, which gives that different bytes stay different and that every result is possible. False without a device and for large process numbers, with witnesses.

## 4. What is modelled

| Area | Source (under `/repo/library`) | Modelled | Left out |
|---|---|---|---|
| Base64 | Java/Util/Base64 | encoders, decoders, MIME, arrays with checked access | `wrap`, streams |
| UrlCodec | Java/Net/URLEncoder, URLDecoder | `encode`, `decode` | encodings other than the check of the name |
| MathOps | Java/Lang/Math | integer functions | floating point functions (see Floats) |
| NumText, Bits | Java/Lang/Integer, Long | parsing, rendering, bit operations | – |
| Wrappers | Java/Lang/Bytes, Short, Integer, Long, Boolean | values, cached texts, operators, comparison, parsing | text memory is freed only right before it is made again, so only the text is kept |
| BitSet | Java/Util/BitSet | all operations, cached text ownership | streams |
| Arrays | Java/Util/Arrays | sort (its own merge sort), binary search, copies, fills, equality, hash | – |
| ArrayList, Vector, Stack | Java/Util/… | `std::vector` as a list with capacity; each method | iterators over other collections |
| LinkedList | Java/Util/LinkedList | nodes in an explicit heap with allocation and deletion | – |
| PriorityQueue | Java/Util/PriorityQueue | `std::make_heap/push_heap/pop_heap` as in libstdc++ (sift-to-leaf then up) | – |
| HashMap | Java/Util/HashMap | `std::unordered_map` as a finite map with an arbitrary iteration order | buckets, load factor |
| Character | Java/Lang/Character | tables by range, code points, digits | locale tables of `iswalpha` etc. |
| JString | Java/Lang/String | methods on byte lists, C-string views, cached hash | `std::regex` |
| StringBuilder, StringBuffer | Java/Lang/… | a block of memory (`Buf.lean`): bytes possibly uninitialised, out-of-range access is `ub`; growth and moves | allocation failure |
| Queue of one producer on C++ memory (`Weak`) | Java/Util/Concurrent/ConcurrentLinkedQueue/concurrentqueue.hpp | `enqueue`, `dequeue` with relaxed, acquire, release, acq_rel and the acquire fence; modification orders, happens-before as views, races on the places of elements | reuse of blocks and the block table (every index has its own place), wrap-around of indexes, out-of-thin-air executions, stores placed before other stores in modification order (shown not to occur for the queue itself), `memory_order_consume` and `seq_cst` (not used) |
| Reuse of blocks on C++ memory (`WeakReuse`) | Java/Util/Concurrent/ConcurrentLinkedQueue/concurrentqueue.hpp | implicit `enqueue`, `dequeue`, `set_empty`, `reset_empty`, `FreeList::add`, `try_get`, `add_knowing_refcount_is_zero`, `requisition_block` with their memory orders | reuse and growth of the table of blocks, several adding threads, exceptions |
| Queue of many producers on C++ memory (`WeakMany`) | Java/Util/Concurrent/ConcurrentLinkedQueue/concurrentqueue.hpp, ConcurrentLinkedQueue.hpp | `inner_enqueue`, `try_dequeue`, `size_approx`, `enqueue`, `dequeue` of every producer with their memory orders | as for `Weak`; the order in which producers are tried is left open; the table from threads to producers (`ProdHash`) |
| ConcurrentHashMap's locks on C++ memory (`WeakLock`) | Java/Util/Concurrent/ConcurrentHashMap/libcuckoo | `spinlock`, `check_hashpower`, `lock_one`/`two`/`three`, `lock_all`, unlocking, `hashpower()`, `size()` of libcuckoo, with memory orders | which buckets a call needs (any locks are taken); growth of the number of locks (it is at its maximum for `ConcurrentHashMap`); copying a map; a `test_and_set` that finds the flag set is a load of the set value |
| Math.IEEERemainder (`Remainder`) | Java/Lang/Math | `math_ieeeremainder`, `IEEERemainder` | fused or wider arithmetic of the compiler; the sign of a NaN |
| LightweightSemaphore on C++ memory (`WeakSema`) | Java/Util/Concurrent/LinkedBlockingQueue/lightweightsemaphore.hpp | all calls of `LightweightSemaphore`, with memory orders | overflow of the count; failures of `sem_*` other than time-outs; that POSIX calls acquire and release is assumed |
| Random bytes (`RandBytes`) | Java/Util/UUID/libuuid/randutils.c | `random_get_fd`, `random_get_bytes` | `jrand48` (not compiled); the generator `rand` itself; times before 1970 |
| StringBuffer, shared (`Sync*`) | Java/Lang/StringBuffer | every method step by step, `std::mutex` with `lock_guard` (released on exceptions), any number of threads and buffers; `operator=` between shared buffers | the copy constructor, whose accesses to the other buffer are those of `operator=`; one `memmove`, `memcpy` or loop over the block is one step; sequentially consistent memory |
| Random | Java/Util/Random | all draws, copies, threads sharing one generator | rounding of doubles (a parameter `Fp`) |
| Semaphore | Java/Util/Concurrent/Semaphore | all methods, steps per shared access, spurious wake-ups | time (a timed wait may end at any moment) |
| Thread | Java/Lang/Thread | `start`, `run`, `join`, `isAlive`, `getId`, `currentThread`, `detach`, the destructor | names, `sleep`; races on fields without a mutex (an access is one step); functions that throw |
| LinkedQueue | Java/Util/Concurrent/ConcurrentLinkedQueue, concurrentqueue.hpp | `add`, `poll`, `size`, `isEmpty`, the stubs; `enqueue`, `try_dequeue`, `size_approx`, implicit producers, block index, `requisition_block`, `~ConcurrentQueue`, `~ImplicitProducer` | weak memory; wrap-around of 64-bit indexes; failing allocation and throwing elements; the loops of the free list and of the producer table (one step each here; see FreeList and ProdHash); copying and moving the queue |
| Floats | Java/Lang/Double, Java/Lang/Float, Java/Lang/Math | `doubleToRawLongBits`, `floatToRawIntBits` with their buffers, `longBitsToDouble`, `intBitsToFloat`, `compare`, `equals`, the operators, `hashCode`, the tests, constants and conversions to integers; `Math.abs`, `max`, `min`, `signum`, `getExponent`, `ulp`, `nextDown`, `round` | texts and parsing (see FloatText); functions that only call the C library (`sin`, `pow`, `nexttoward`, ...); arithmetic operators; the sums of powers of two and `pow(2, n)` are taken to be exact where they are representable |
| Format | Java/Lang/String `format`, `print`, `printObject` | `regexec` for the pattern, `snprintf` for integers, characters and texts, arguments of all types, missing and surplus arguments, the buffers | the texts of floating point numbers and addresses (a parameter), failing allocation and `regcomp`, sizes beyond `int` |
| FloatText | Java/Lang/Double, Java/Lang/Float | the constructors, copies, assignments, `toString`, `parseDouble`, `parseFloat`, `valueOf`, `charValue`, the compound operators, the hashes of the containers; `sprintf` of `%.15f`, `%f` and `%g` and `sscanf` of `%lg` and `%f` as correctly rounding functions | the sign of NaN, hexadecimal texts, other locales, failing allocation, the arithmetic itself (a parameter) |
| LightSema | Java/Util/Concurrent/LinkedBlockingQueue/lightweightsemaphore.hpp | every public call, spinning, sleeping, time-outs, weak exchanges that fail, the asserts, the deadline | weak memory, overflow of the count, errors of `sem_*` but time-outs, the semaphores of Windows and macOS, the clock |
| BlockQueue | Java/Util/Concurrent/LinkedBlockingQueue/blockingconcurrentqueue.hpp | all enqueue and dequeue calls, single, bulk, waiting and timed, `size_approx` | the steps and the order of the inner queue (a bag here, see LinkedQueue), moving and swapping, failing allocation, exceptions |
| FreeList | Java/Util/Concurrent/ConcurrentLinkedQueue/concurrentqueue.hpp (1377-1490) | `add`, `try_get`, `add_knowing_refcount_is_zero`, every access to shared memory a step, 32-bit counts | weak memory orders, destruction of the pool, `MCDBGQ_NOLOCKFREE_FREELIST`, blocks of the initial pool before their first use |
| ProdHash | Java/Util/Concurrent/ConcurrentLinkedQueue/concurrentqueue.hpp (3232-3286, 3326-3476) | `get_or_add_implicit_producer`, the chain of tables, every access to shared memory a step, failed allocations | weak memory orders, wrap-around of the count and of capacities, thread-local support (not compiled), the list of producers (one step), swap and destruction |
| TokenQueue | Java/Util/Concurrent/ConcurrentLinkedQueue/concurrentqueue.hpp (1499-1625, 1639-2359) | `ExplicitProducer`: `enqueue`, `enqueue_bulk`, `dequeue`, `dequeue_bulk`, `new_block_index`, the destructor, every access to shared memory a step, failed allocations | weak memory orders, wrap-around of indexes, throwing elements, the pool of blocks (one step; see FreeList), consumer tokens |
| Kernel | Kernel/Java.hpp, Kernel/Common.hpp (instanceof), Java/Lang/Object, Enum, Throwable, Java/Util/Set | `Array`, its iterator, `Application`, `hashCode`, `equals`, `instanceof`, `Enum`, `Throwable`, `Set` | failing allocation; `wait`, `notify`, `clone` of `Object`; stack traces; hash codes of the other classes (see their areas) |
| Net | Java/Net/URL, Java/Net/URLConnection | constructors, copies, getters, setters, texts | `HttpURLConnection`, which adds constants and methods without a body |
| DateFormat | Java/Text/SimpleDateFormat, Java/Util/TimeZone | `format`, `setTimeZone`, `getTimeZone`, `getID`, `TZ`, the buffer | flags and widths in patterns; threads; daylight saving; what `strftime` leaves in a buffer that is too small (taken as undefined) |
| Uuid, LibUuid | Java/Util/UUID | texts, fields, packing, generation, clock | `timestamp`, the source of random bytes (a parameter) |
| CaseText | Java/Lang/String/String.cpp (35-67, 463-469), Boolean, URLEncoder, URLDecoder | conversion to wide characters and back, every byte string | the tables of letters (parameters); allocation that fails |
| UuidClock | Java/Util/UUID/libuuid/gen_uuid.c (266-376), UUID.cpp (243-249) | the clock file and its text, `flock`, static variables, threads, processes that are killed, `open` and `ftruncate` that fail | `flock` and `fdopen` that fail; one `write` is one step; a prefix `0x` in the file; the library before its first call in a forked child |
| Md5, Sha1, Digest | Java/Security/MessageDigest | block functions, streaming, lifecycle, copies | alignment and aliasing of the word access |
| MediaType | Javax/Ws/Rs/Core | construction, parsing, text, compatibility | parameters |
| ConcMap | Java/Util/Concurrent/ConcurrentHashMap | calls as sequences of table operations | the table's operations are atomic here; `Cuckoo` proves it |
| Cuckoo | Java/Util/Concurrent/ConcurrentHashMap/libcuckoo | `find`, `insert_or_assign`, `erase` with breadth-first displacement, both ways of growth, lazy migration, `size`, `clear`, copies, `lock_table` iteration, spinlocks | the other methods of libcuckoo; iterators after their locks are gone; weak memory; `size()` beside other threads |
| Date | Java/Util/Date | all methods except `hashCode` | daylight saving (the zone is a fixed offset and a name), threads |

Assumptions on the platform beyond the platform paragraph: sequentially
consistent atomics; mutexes and condition variables as in the C++ standard, with
spurious wake-ups; little-endian words in MD5; glibc's `strtoul`, `strtol`, `sprintf`, `sscanf` of floating point values,
`sscanf("%hi")`, `localtime`, `mktime` and `strftime` as modelled in
`CStr`, `NumText`, `Wrappers` and `Date/Calendar`; `codecvt_utf8` in `CaseText`
(elsewhere texts whose case is changed are ASCII).

## 5. Axioms

Every theorem named in `MANIFEST.json` depends on no axiom outside
`propext`, `Classical.choice` and `Quot.sound` (`#print axioms`; the audit run by
`vcheck` lists them per theorem). Most theorems use `propext` and `Quot.sound`
only; the three appear where `omega`, `simp` or case analysis on a
proposition bring in classical reasoning.

## 6. Disagreements between the code and the properties

A property whose `MANIFEST.json` note starts with "False" is violated by the
code. The theorem with the suffix `_wrong` (or `_undefined`, `_unsafe`,
`_diverges`) proves the negation, as far as possible for every input of the
failing kind, and the `_partial` theorem proves the claim on the rest.
