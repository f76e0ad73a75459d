{"id": "C01", "title": "Base64 basic/URL encode-decode round trip", "statement": "Decoding, with the basic (resp. URL-safe) decoder, what the basic (resp. URL-safe) encoder produced returns exactly the original bytes, with or without padding.", "quantifier": "every byte array of any length, both alphabets, padding on or off", "why_tests_cant": "The domain is all byte strings; the three residue classes of the length interact with padding and with the bit-packing of each byte, and samples only cover a few contents per class.", "anchors": ["library/Java/Util/Base64/Base64.cpp: Encoder::encode, Encoder::encoding, Encoder::outLength, Decoder::decode, Decoder::decoding, Decoder::outLength"]}
{"id": "C02", "title": "Base64 encoder agrees with RFC 4648", "statement": "The output of the basic/URL encoder is the RFC 4648 encoding: output length is 4*ceil(n/3) (or the unpadded length), and the i-th output character is the alphabet entry of the i-th 6-bit group of the input, followed by the right number of '=' signs.", "quantifier": "every byte array, both alphabets, padding on or off", "why_tests_cant": "A bit-packing or length error can depend on any byte value at any position.", "anchors": ["library/Java/Util/Base64/Base64.cpp: Encoder::encoding, Encoder::outLength"]}
{"id": "C03", "title": "Base64 decoding never touches memory outside its arrays", "statement": "Decoding an arbitrary byte array with the basic or URL decoder either returns a byte array or throws the documented exception; it never indexes outside the source, the table or the result, and a character outside the alphabet is always rejected.", "quantifier": "every byte array, valid Base64 or not, both alphabets", "why_tests_cant": "The malformed inputs are unbounded; tests cover a handful of malformed shapes.", "anchors": ["library/Java/Util/Base64/Base64.cpp: Decoder::decode, Decoder::decoding, Decoder::outLength"]}
{"id": "C04", "title": "MIME Base64 line structure and round trip", "statement": "The MIME encoder emits the basic encoding cut into lines of at most the requested length joined by the separator, with no trailing separator, and the MIME decoder recovers the original bytes from it.", "quantifier": "every byte array, every line length >= 0 and every separator made of non-Base64 characters", "why_tests_cant": "Line boundaries fall on arbitrary positions relative to input blocks and to the final partial block.", "anchors": ["library/Java/Util/Base64/Base64.cpp: getMimeEncoder, Encoder::encoding, getMimeDecoder, Decoder::outLength"]}
{"id": "C05", "title": "URL encoding round trip", "statement": "URLDecoder.decode(URLEncoder.encode(s)) returns s.", "quantifier": "every byte string s without NUL bytes (and, stated separately, what happens with NUL bytes)", "why_tests_cant": "Every byte value at every position, including bytes that look like escapes ('%', '+'), must survive.", "anchors": ["library/Java/Net/URLEncoder/URLEncoder.cpp: encode, urlEncode", "library/Java/Net/URLDecoder/URLDecoder.cpp: decode, urlDecode"]}
{"id": "C06", "title": "URL-encoded text contains only URL-safe characters", "statement": "Every character produced by URLEncoder.encode is an ASCII letter or digit, one of -_.~+, or part of a well-formed %hh escape, and two different (NUL-free) strings never have the same encoding.", "quantifier": "every byte string", "why_tests_cant": "Injectivity ranges over pairs of inputs; a clash cannot be excluded by sampling.", "anchors": ["library/Java/Net/URLEncoder/URLEncoder.cpp: urlEncode"]}
{"id": "C07", "title": "URL decoding of arbitrary input is memory-safe", "statement": "URLDecoder.decode on arbitrary text, including truncated or malformed escapes, never reads beyond the string's terminator and never produces a longer string than its input.", "quantifier": "every byte string used as encoded input", "why_tests_cant": "Malformed escapes can sit at any position, notably at the very end.", "anchors": ["library/Java/Net/URLDecoder/URLDecoder.cpp: urlDecode"]}
{"id": "C08", "title": "Exact integer addition, subtraction, negation, increment and decrement", "statement": "Math.addExact, subtractExact, negateExact, incrementExact and decrementExact return the mathematical result exactly when it is representable in the argument type and throw ArithmeticException otherwise.", "quantifier": "every pair of ints and every pair of longs", "why_tests_cant": "2^64 / 2^128 argument pairs; overflow detection by sign tricks must be right at every boundary.", "anchors": ["library/Java/Lang/Math/Math.cpp: addExact, subtractExact, negateExact, incrementExact, decrementExact"]}
{"id": "C09", "title": "Exact multiplication and narrowing", "statement": "Math.multiplyExact returns the mathematical product exactly when it is representable and throws ArithmeticException otherwise; toIntExact returns its argument exactly when it fits an int and throws otherwise.", "quantifier": "every pair of ints, every pair of longs, every long", "why_tests_cant": "A lossy overflow check fails only on sparse argument combinations.", "anchors": ["library/Java/Lang/Math/Math.cpp: multiplyExact, toIntExact"]}
{"id": "C10", "title": "Floor division and modulus laws", "statement": "For every nonzero divisor, floorDiv(x,y) is the largest integer q with q*y <= x (for positive y; dually for negative y), floorMod(x,y) has the sign of y and magnitude below |y|, and floorDiv(x,y)*y + floorMod(x,y) == x; a zero divisor raises ArithmeticException.", "quantifier": "every dividend and divisor of both integer types", "why_tests_cant": "Sign combinations and extreme values over 2^64 / 2^128 pairs.", "anchors": ["library/Java/Lang/Math/Math.cpp: floorDiv, floorMod"]}
{"id": "C11", "title": "Integer text round trip", "statement": "Integer.parseInt(Integer.toString(i)) == i, and parsing the binary, octal and hexadecimal renderings of i as unsigned in that radix gives i back.", "quantifier": "every int", "why_tests_cant": "All 2^32 values, with the special handling of the minimum value and of negative numbers.", "anchors": ["library/Java/Lang/Integer/Integer.cpp: parseInt, parseUnsignedInt, toString, toUnsignedString, toHexString, toBinaryString, toOctalString"]}
{"id": "C12", "title": "Integer parsing rejects malformed text", "statement": "Integer.parseInt accepts exactly the texts consisting of an optional sign and one or more digits of the radix denoting a representable value, and throws NumberFormatException on every other text.", "quantifier": "every string and radix", "why_tests_cant": "The set of malformed texts is infinite.", "anchors": ["library/Java/Lang/Integer/Integer.cpp: parseInt, decode"]}
{"id": "C13", "title": "Integer bit-twiddling operations", "statement": "highestOneBit, lowestOneBit, numberOfLeadingZeros, numberOfTrailingZeros, bitCount, reverse, reverseBytes, rotateLeft and rotateRight compute their documented bit-level functions.", "quantifier": "every int and every rotation distance", "why_tests_cant": "All 2^32 words; tricks with constants fail on isolated patterns.", "anchors": ["library/Java/Lang/Integer/Integer.cpp: highestOneBit, lowestOneBit, numberOfLeadingZeros, numberOfTrailingZeros, bitCount, reverse, reverseBytes, rotateLeft, rotateRight"]}
{"id": "C14", "title": "Integer unsigned arithmetic", "statement": "compareUnsigned orders ints as unsigned values, and divideUnsigned/remainderUnsigned return the unsigned quotient and remainder (ArithmeticException for a zero divisor).", "quantifier": "every pair of ints", "why_tests_cant": "2^64 pairs.", "anchors": ["library/Java/Lang/Integer/Integer.cpp: compareUnsigned, divideUnsigned, remainderUnsigned"]}
{"id": "C15", "title": "Long bit-twiddling operations", "statement": "Long.bitCount, highestOneBit, lowestOneBit, numberOfLeadingZeros, numberOfTrailingZeros, reverse, reverseBytes, rotateLeft, rotateRight and signum compute their documented functions.", "quantifier": "every long and every rotation distance", "why_tests_cant": "All 2^64 words.", "anchors": ["library/Java/Lang/Long/Long.cpp: bitCount, highestOneBit, lowestOneBit, numberOfLeadingZeros, numberOfTrailingZeros, reverse, reverseBytes, rotateLeft, rotateRight, signum"]}
{"id": "C16", "title": "Long text round trip", "statement": "Long.toHexString followed by Long.decode of \"0x\"+text returns the value for every nonnegative long; parsing the decimal rendering returns the value.", "quantifier": "every long", "why_tests_cant": "All 2^64 values.", "anchors": ["library/Java/Lang/Long/Long.cpp: parseLong, decode, toHexString, toString"]}
{"id": "C17", "title": "BitSet behaves as a set of indices under single-bit operations", "statement": "After any history of set/clear/flip on single indices, get(i) is true exactly when the history, replayed on an abstract set of natural numbers, contains i; negative indices raise IndexOutOfBoundsException and change nothing.", "quantifier": "every history of operations with arbitrary indices, every queried index", "why_tests_cant": "Histories are unbounded and each can force array growth and shrinking of the used-word count.", "anchors": ["library/Java/Util/BitSet/BitSet.cpp: set, clear, flip, get, expandTo, recalculateWordsInUse"]}
{"id": "C18", "title": "BitSet range operations", "statement": "set(from,to), set(from,to,value) and clear(from,to) affect exactly the indices from <= i < to; get(from,to) returns the members of that range shifted down by from; flip(from,to) toggles exactly the indices of the range; invalid ranges raise IndexOutOfBoundsException.", "quantifier": "every bit set and every range", "why_tests_cant": "Word-boundary cases: from and to may fall anywhere relative to 64-bit words.", "anchors": ["library/Java/Util/BitSet/BitSet.cpp: set(int,int), clear(int,int), flip(int,int), get(int,int)"]}
{"id": "C19", "title": "BitSet logical operations", "statement": "bitAnd, bitOr, bitXor and andNot turn the receiver into the intersection, union, symmetric difference and difference of the two index sets; intersects is true exactly when the intersection is nonempty; the argument is unchanged.", "quantifier": "every pair of bit sets with any capacities", "why_tests_cant": "The two operands may have any relation between word counts and capacities.", "anchors": ["library/Java/Util/BitSet/BitSet.cpp: bitAnd, bitOr, bitXor, andNot, intersects"]}
{"id": "C20", "title": "BitSet queries", "statement": "nextSetBit(i)/nextClearBit(i) return the least member/non-member >= i, previousSetBit/previousClearBit the greatest <= i (or -1), length() is one more than the greatest member, cardinality() is the number of members and isEmpty() holds exactly for the empty set.", "quantifier": "every reachable bit set and every index", "why_tests_cant": "Scans cross arbitrary numbers of words.", "anchors": ["library/Java/Util/BitSet/BitSet.cpp: nextSetBit, nextClearBit, previousSetBit, previousClearBit, length, cardinality, isEmpty"]}
{"id": "C21", "title": "BitSet serialisation and equality", "statement": "valueOf(toLongArray()) and valueOf(toByteArray()) reproduce the same set of indices, and two bit sets compare equal exactly when they have the same members, whatever their capacities or histories.", "quantifier": "every pair of reachable bit sets", "why_tests_cant": "Equality must not depend on trailing zero words left by any history.", "anchors": ["library/Java/Util/BitSet/BitSet.cpp: toLongArray, toByteArray, valueOf, operator==, equals"]}
{"id": "C22", "title": "Arrays.sort sorts", "statement": "Arrays.sort leaves the array as a permutation of its previous contents in ascending order, terminates, and never indexes outside the array.", "quantifier": "every array of any length over any totally ordered element type", "why_tests_cant": "All arrays; in-place partitioning with an explicit stack fails only on particular orderings.", "anchors": ["library/Java/Util/Arrays/Arrays.hpp: sort, sortOrigin"]}
{"id": "C23", "title": "Arrays.binarySearch finds keys", "statement": "On a sorted array binarySearch returns an index holding the key when the key is present in the searched range and a negative number otherwise, and never indexes outside the array.", "quantifier": "every sorted array, key and range", "why_tests_cant": "The outcome depends on the parity pattern of the interval sequence.", "anchors": ["library/Java/Util/Arrays/Arrays.hpp: binarySearch, BinarySearch"]}
{"id": "C24", "title": "Arrays copy, fill and equality", "statement": "copyOf returns the prefix padded with default values, copyOfRange returns exactly the requested range, fill sets exactly the requested range, equals is true exactly for element-wise equal arrays of the same length, and equal arrays have equal hashCode.", "quantifier": "every array, length and range", "why_tests_cant": "Range ends may coincide with the array ends.", "anchors": ["library/Java/Util/Arrays/Arrays.hpp: copyOf, copyOfRange, fill, equals, hashCode"]}
{"id": "C25", "title": "ArrayList is a sequence", "statement": "Any history of add, add(index), set, remove(index), remove(element), clear and removeRange leaves the list equal to the same history on an abstract sequence, and get/size/contains/indexOf/lastIndexOf answer from it; out-of-range indices raise IndexOutOfBoundsException and leave the list unchanged.", "quantifier": "every history and every index", "why_tests_cant": "Unbounded histories.", "anchors": ["library/Java/Util/ArrayList/ArrayList.hpp: add, get, set, remove, indexOf, lastIndexOf, clear, removeRange"]}
{"id": "C26", "title": "Vector is a sequence", "statement": "Any history of Vector operations (add, add(index), addAll, insertElementAt, set, remove, removeAll, retainAll, removeRange, setSize, clear) leaves the vector equal to the same history on an abstract sequence; invalid indices raise and leave it unchanged.", "quantifier": "every history", "why_tests_cant": "Unbounded histories.", "anchors": ["library/Java/Util/Vector/Vector.hpp: add, addAll, insertElementAt, set, remove, removeAll, retainAll, removeRange, setSize"]}
{"id": "C27", "title": "Stack is last-in first-out", "statement": "pop and peek return the most recently pushed element not yet popped, raise EmptyStackException on an empty stack, and search(o) returns the 1-based distance from the top of the topmost occurrence or -1.", "quantifier": "every history of push/pop/peek", "why_tests_cant": "Unbounded interleavings of push and pop.", "anchors": ["library/Java/Util/Stack/Stack.hpp: push, pop, peek, empty, search"]}
{"id": "C28", "title": "LinkedList is a double-ended queue", "statement": "Any history of addFirst/addLast/push/pop/pollFirst/pollLast/removeFirst/removeLast/remove(index) behaves like the same history on an abstract sequence; operations on an empty list are reported and not undefined.", "quantifier": "every history", "why_tests_cant": "Unbounded histories including draining the list to empty and beyond.", "anchors": ["library/Java/Util/LinkedList/LinkedList.hpp: addFirst, addLast, pollFirst, pollLast, remove, get"]}
{"id": "C29", "title": "PriorityQueue always serves the greatest element", "statement": "After any history of offer/add/poll, peek and poll return a greatest element of the current contents and the contents equal the multiset of offered minus polled elements; remove(e) deletes one occurrence and keeps this true.", "quantifier": "every history over any totally ordered element type", "why_tests_cant": "Heap order can be broken by an operation and only show several polls later.", "anchors": ["library/Java/Util/PriorityQueue/PriorityQueue.hpp: offer, poll, peek, remove"]}
{"id": "C30", "title": "HashMap is a finite map", "statement": "put(k,v) makes get(k) return v and leaves other keys alone; putIfAbsent keeps an existing binding; remove deletes the binding; replace updates only existing bindings; getOrDefault, containsKey, containsValue and size answer from the same finite map.", "quantifier": "every history of operations over any key and value types", "why_tests_cant": "Overwriting behaviour depends on the history.", "anchors": ["library/Java/Util/HashMap/HashMap.hpp: put, get, putIfAbsent, remove, replace, getOrDefault, containsKey, containsValue, size"]}
{"id": "C31", "title": "HashMap equality", "statement": "equals returns true exactly when both maps have the same keys bound to equal values.", "quantifier": "every pair of maps", "why_tests_cant": "Pairs of maps with different keys and default values.", "anchors": ["library/Java/Util/HashMap/HashMap.hpp: equals"]}
{"id": "C32", "title": "String search", "statement": "indexOf(s) returns the least position at which s occurs or -1, lastIndexOf the greatest, contains/startsWith/endsWith/regionMatches are true exactly when there is an occurrence at some/first/last/given position.", "quantifier": "every pair of strings and every start position", "why_tests_cant": "Strings are unbounded and may contain NUL bytes.", "anchors": ["library/Java/Lang/String/String.cpp: indexOf, lastIndexOf, contains, startsWith, endsWith, regionMatches"]}
{"id": "C33", "title": "String split and join", "statement": "Joining the pieces returned by split(d) with d gives the original string, no piece contains d, and the number of pieces is one more than the number of (non-overlapping) occurrences of d; split terminates.", "quantifier": "every string and every delimiter", "why_tests_cant": "Delimiters may overlap with themselves, be adjacent, be empty, or sit at either end.", "anchors": ["library/Java/Lang/String/String.cpp: split, join"]}
{"id": "C34", "title": "String replace", "statement": "replace(a,b) replaces every non-overlapping occurrence of a, left to right, by b and terminates; replacing a character changes exactly the positions holding it.", "quantifier": "every string, target and replacement", "why_tests_cant": "The replacement may contain the target; the target may be empty.", "anchors": ["library/Java/Lang/String/String.cpp: replace, replaceAll, replaceFirst"]}
{"id": "C35", "title": "String ordering and equality", "statement": "equals is byte-wise equality; compareTo is a total order consistent with equals (zero exactly for equal strings, antisymmetric, transitive).", "quantifier": "all triples of strings", "why_tests_cant": "Triples of unbounded strings with embedded NULs.", "anchors": ["library/Java/Lang/String/String.cpp: equals, compareTo, compareToIgnoreCase, contentEquals"]}
{"id": "C36", "title": "String hash consistency", "statement": "Equal strings always have equal hashCode, and hashCode equals the polynomial hash s[0]*31^(n-1)+...+s[n-1] in 32-bit arithmetic of the current contents.", "quantifier": "every string and every history of mutation and hashing on it", "why_tests_cant": "The hash is cached; only particular histories expose a stale cache.", "anchors": ["library/Java/Lang/String/String.cpp: hashCode, operator+=, operator="]}
{"id": "C37", "title": "String slicing", "statement": "subString(b,e), charAt, trim, toLowerCase/toUpperCase and concat return exactly the documented slice or mapping, and invalid indices raise StringIndexOutOfBoundsException.", "quantifier": "every string and every index pair", "why_tests_cant": "Index pairs at and beyond both ends, including the empty string.", "anchors": ["library/Java/Lang/String/String.cpp: subString, charAt, trim, toLowerCase, toUpperCase, concat, getStringFromIndex"]}
{"id": "C38", "title": "StringBuilder edits", "statement": "Any history of append, insert, deleteRange, deleteCharAt, replace, reverse, setLength and setCharAt leaves the builder holding the text the same history gives on an abstract sequence; never writes outside its allocation; invalid indices raise and leave it unchanged.", "quantifier": "every history", "why_tests_cant": "Unbounded histories with reallocation at arbitrary points.", "anchors": ["library/Java/Lang/StringBuilder/StringBuilder.cpp: append, insert, deleteRange, deleteCharAt, replace, reverse, setLength, setCharAt, ensureCapacity"]}
{"id": "C39", "title": "StringBuilder search", "statement": "indexOf(s, from) returns the least position >= from where s occurs or -1 and lastIndexOf the greatest position <= from or -1.", "quantifier": "every text, pattern and start position", "why_tests_cant": "Self-overlapping patterns are rare in samples.", "anchors": ["library/Java/Lang/StringBuilder/StringBuilder.cpp: indexOf, lastIndexOf"]}
{"id": "C40", "title": "StringBuffer edits are memory-safe and correct", "statement": "Any history of append, insert, delete, deleteCharAt, replace, reverse and setLength leaves the buffer holding the abstractly expected text, and no operation reads or writes outside the allocation.", "quantifier": "every history", "why_tests_cant": "Off-by-one accesses appear only when the buffer is exactly full.", "anchors": ["library/Java/Lang/StringBuffer/StringBuffer.cpp: append, insert, deletes, deleteCharAt, replace, reverse, setLength, toString"]}
{"id": "C41", "title": "Random is the documented linear congruential generator", "statement": "Two generators created from the same seed produce the same outputs for the same calls, each call's output being the documented function of the 48-bit state sequence; setSeed(s) makes the generator indistinguishable from a new one created from s.", "quantifier": "every seed and every sequence of calls", "why_tests_cant": "All seeds and call sequences.", "anchors": ["library/Java/Util/Random/Random.cpp: Random, next, setSeed, nextInt, nextLong, nextBoolean"]}
{"id": "C42", "title": "Random bounded outputs stay in range", "statement": "nextInt(bound) returns a value v with 0 <= v < bound whenever it returns, raises for bound <= 0, and every value is drawn from equally many raw 31-bit outputs (no modulo bias).", "quantifier": "every state and every bound", "why_tests_cant": "2^48 states x 2^31 bounds.", "anchors": ["library/Java/Util/Random/Random.cpp: nextInt(int)"]}
{"id": "C43", "title": "Random is safe to share between threads", "statement": "When any number of threads call next concurrently, under every interleaving the outputs delivered are exactly the outputs of consecutive states of the sequential generator, each state consumed by exactly one call.", "quantifier": "every number of threads, every interleaving of loads and compare-and-swaps, including spurious failures", "why_tests_cant": "Schedules cannot be enumerated by running.", "anchors": ["library/Java/Util/Random/Random.cpp: next, seedUniquifier"]}
{"id": "C44", "title": "Semaphore permit conservation", "statement": "In every schedule, permits available = initial + released - acquired.", "quantifier": "every number of threads, every interleaving, spurious wakeups included", "why_tests_cant": "Schedules.", "anchors": ["library/Java/Util/Concurrent/Semaphore/Semaphore.cpp: acquire, tryAcquire, release, availablePermits"]}
{"id": "C45", "title": "Semaphore never over-grants", "statement": "The number of permits held never exceeds the initial permits plus the permits released: acquire returns only when a permit was really available, and a timed tryAcquire takes all requested permits or none.", "quantifier": "every number of threads and every interleaving", "why_tests_cant": "The race window between a check and a decrement is not reliably hit by tests.", "anchors": ["library/Java/Util/Concurrent/Semaphore/Semaphore.cpp: acquire, tryAcquire, release"]}
{"id": "C46", "title": "Concurrent map removal happens once", "statement": "If a mapping is present once and several threads remove it concurrently, exactly one of them is told that it removed it; conditional removal only removes the expected value.", "quantifier": "every interleaving of the atomic table operations each call performs", "why_tests_cant": "Check-then-act windows.", "anchors": ["library/Java/Util/Concurrent/ConcurrentHashMap/ConcurrentHashMap.hpp: remove, put, get"]}
{"id": "C47", "title": "UUID text round trip", "statement": "UUID.fromString(u.toString()) equals u, toString always yields the 36-character 8-4-4-4-12 lowercase form, and every such text is read as the number it shows.", "quantifier": "every 128-bit value", "why_tests_cant": "2^128 values; sign extension errors show only for some bits.", "anchors": ["library/Java/Util/UUID/UUID.cpp: toString, fromString, digits"]}
{"id": "C48", "title": "UUID ordering, equality and fields", "statement": "compareTo is a total order consistent with equals; equal UUIDs have equal hashCode; version, clockSequence (of version 1) and node return the RFC 4122 bit fields.", "quantifier": "all (triples of) 128-bit values", "why_tests_cant": "2^128 values; arithmetic shifts matter only for half of them.", "anchors": ["library/Java/Util/UUID/UUID.cpp: compareTo, equals, hashCode, version, clockSequence, node"]}
{"id": "C49", "title": "Binary UUID pack/unpack and parse/unparse", "statement": "Unpacking and packing a 16-byte UUID is the identity, parsing the text produced by unparsing returns the same bytes, and parse accepts exactly 36-character texts with dashes at the four positions and hexadecimal digits elsewhere.", "quantifier": "every 16-byte value and every text", "why_tests_cant": "2^128 values; all malformed texts.", "anchors": ["library/Java/Util/UUID/libuuid/parse.c: uuid_parse", "library/Java/Util/UUID/libuuid/unparse.c: uuid_unparse_x", "library/Java/Util/UUID/libuuid/pack.c: uuid_pack", "library/Java/Util/UUID/libuuid/unpack.c: uuid_unpack"]}
{"id": "C50", "title": "MD5 streaming equals one-shot RFC 1321", "statement": "Feeding a message in any chunks and finishing yields the RFC 1321 MD5 digest of the concatenation.", "quantifier": "every message of any length and every way to cut it into chunks of less than 2^29 bytes each", "why_tests_cant": "Chunkings relative to 64-byte blocks and the 56-byte padding boundary.", "anchors": ["library/Java/Security/MessageDigest/md5.cpp: md5_init, md5_append, md5_finish, md5_process"]}
{"id": "C51", "title": "SHA-1 streaming equals one-shot FIPS 180", "statement": "Feeding a message in any chunks and finishing yields the FIPS 180 SHA-1 digest of the concatenation.", "quantifier": "every message of any length and every way to cut it into chunks", "why_tests_cant": "Chunkings and padding boundary.", "anchors": ["library/Java/Security/MessageDigest/sha1.cpp: SHA1_Init, SHA1_Update, SHA1_Final, shaHashBlock"]}
{"id": "C52", "title": "MessageDigest lifecycle", "statement": "digest() after a history of update calls returns the digest of the bytes updated since construction or the last reset/digest, and calling digest() resets the object.", "quantifier": "every history of update/digest/reset", "why_tests_cant": "Histories.", "anchors": ["library/Java/Security/MessageDigest/MessageDigest.cpp: update, digest, reset, engineDigest"]}
{"id": "C53", "title": "MediaType parse/format and compatibility", "statement": "MediaType.valueOf(m.toString()) equals m for every constructible media type, and isCompatible is reflexive and symmetric.", "quantifier": "every pair of type/subtype texts", "why_tests_cant": "All texts, wildcards included.", "anchors": ["library/Javax/Ws/Rs/Core/MediaType.cpp: MediaType, valueOf, toString, isCompatible"]}
{"id": "C54", "title": "Dates are independent values", "statement": "Creating or changing one Date never changes the fields another Date reports; compareTo/before/after/equals agree with getTime.", "quantifier": "every history of operations on any number of Dates", "why_tests_cant": "Aliasing shows only for particular interleavings of operations on two objects.", "anchors": ["library/Java/Util/Date/Date.cpp: initializeDate, updateDateStatus, compareTo, before, after, equals, getTime"]}
{"id": "C55", "title": "Small numeric wrappers", "statement": "Bytes arithmetic is arithmetic modulo 256 with ArithmeticException for zero divisors, Bytes.parseBytes(Bytes(b).toString()) == b, and Boolean.parseBoolean is true exactly for case-insensitive \"true\".", "quantifier": "every byte pair and every string", "why_tests_cant": "All case variants and all strings.", "anchors": ["library/Java/Lang/Bytes/Bytes.cpp: parseBytes, operator+, operator/", "library/Java/Lang/Boolean/Boolean.cpp: parseBoolean, Boolean"]}
{"id": "C56", "title": "Character code point arithmetic", "statement": "toCodePoint inverts the surrogate split for supplementary code points, charCount agrees with it, and digit(c, radix) returns the value of c in that radix or -1.", "quantifier": "every code point, character and radix", "why_tests_cant": "1.1M code points, all radices.", "anchors": ["library/Java/Lang/Character/Character.cpp: toCodePoint, charCount, digit"]}
{"id": "C57", "title": "Absolute value, maximum and minimum", "statement": "Math.abs returns the mathematical absolute value of every int and long that has one, and Math.max/min return the larger/smaller of their arguments as values.", "quantifier": "every int and every long, every pair", "why_tests_cant": "2^64 values and 2^128 pairs; the only bad input is the smallest value.", "anchors": ["library/Java/Lang/Math/Math.cpp: abs, max, min"]}
{"id": "C58", "title": "replaceFirst replaces exactly the first occurrence", "statement": "s.replaceFirst(a, b) is s with the leftmost occurrence of a replaced by b, and s itself when a does not occur.", "quantifier": "every string, pattern and replacement", "why_tests_cant": "All triples of strings; the failures are at the end of the string.", "anchors": ["library/Java/Lang/String/String.cpp: replaceFirst"]}
{"id": "C59", "title": "split with a limit", "statement": "s.split(d, n) with n > 0 yields at most n pieces, and joining the pieces with d gives s back for every n.", "quantifier": "every string, non-empty delimiter and limit", "why_tests_cant": "All strings and limits.", "anchors": ["library/Java/Lang/String/String.cpp: split"]}
{"id": "C60", "title": "Integer.decode understands literals", "statement": "Integer.decode of an optional sign followed by a decimal, 0x-hexadecimal or 0-octal literal returns the value, and NumberFormatException is thrown when it does not fit.", "quantifier": "every literal", "why_tests_cant": "Infinite set of literals, boundary at the smallest int.", "anchors": ["library/Java/Lang/Integer/Integer.cpp: decode, parseInt"]}
{"id": "C61", "title": "Long renderings in powers of two", "statement": "Long.toBinaryString, toOctalString and toHexString return the numeral of the unsigned value of the long without leading zeros.", "quantifier": "every long", "why_tests_cant": "All 2^64 values; the leading digit of octal numbers is cut by the word size.", "anchors": ["library/Java/Lang/Long/Long.cpp: toBinaryString, toOctalString, toHexString, toUnsignedString0, formatUnsignedLong"]}
{"id": "C62", "title": "Equal BitSets have equal hash codes", "statement": "Two bit sets with the same members have the same hashCode(), whatever their capacities and histories.", "quantifier": "every pair of reachable bit sets with the same members", "why_tests_cant": "Histories leave different capacities and trailing words behind.", "anchors": ["library/Java/Util/BitSet/BitSet.cpp: hashCode"]}
{"id": "C63", "title": "BitSet text lists the members", "statement": "toString() is the list of the members in increasing order, separated by comma and blank, between braces.", "quantifier": "every reachable bit set", "why_tests_cant": "The number and size of the members is unbounded.", "anchors": ["library/Java/Util/BitSet/BitSet.cpp: toString"]}
{"id": "C64", "title": "BitSet releases its cached text exactly once", "statement": "Any sequence of toString() calls and assignments followed by destruction never releases the same memory twice and never uses released memory.", "quantifier": "every sequence of toString and assignment on one object", "why_tests_cant": "The defect needs a particular order of calls, and a double free often goes unnoticed.", "anchors": ["library/Java/Util/BitSet/BitSet.cpp: toString, operator=, ~BitSet, cleanUp"]}
{"id": "C65", "title": "Code points of char arrays", "statement": "For a char array, codePointAt(a, i) and codePointBefore(a, i) return the value of the character at i (at i - 1) for every index inside the array and never join two elements; the forms with a limit or start answer -1 exactly when the index lies outside it; codePointCount(a, offset, count) is count for every range inside the array and -1 otherwise; compare orders characters like their values.", "quantifier": "every char array, index, limit, offset and count, including negative ones", "why_tests_cant": "Arrays and ranges of any length.", "anchors": ["library/Java/Lang/Character/Character.cpp: codePointAt, codePointBefore, codePointCount, compare"]}
{"id": "C66", "title": "StringBuilder queries and capacity", "statement": "On a builder holding a text of fewer than 2^30 characters and without NUL characters, charAt, length, substring, toString, codePointAt, codePointBefore and codePointCount answer what the text says or raise for an index outside it, and change nothing; ensureCapacity(n) gives at least n, never shrinks and keeps the text; trimToSize keeps the text and makes the capacity its length; a copy holds the same text.", "quantifier": "every builder, text, index and capacity below 2^30", "why_tests_cant": "Unbounded texts with any spare capacity.", "anchors": ["library/Java/Lang/StringBuilder/StringBuilder.cpp: charAt, length, substring, toString, codePointAt, codePointBefore, codePointCount, ensureCapacity, trimToSize"]}
{"id": "C67", "title": "Vector capacity policy", "statement": "ensureCapacity(n) never changes the elements; it leaves a capacity of n or more alone and otherwise makes it the larger of n and the old capacity plus the chosen increment, or twice the old capacity when no positive increment was chosen.", "quantifier": "every vector and requested capacity up to 2^30", "why_tests_cant": "Capacities of any size; growth decides which later reallocation happens.", "anchors": ["library/Java/Util/Vector/Vector.hpp: ensureCapacity"]}
{"id": "C68", "title": "StringBuffer search", "statement": "indexOf and lastIndexOf of a StringBuffer return the first occurrence at or after, or the last occurrence at or before, the given start, or -1 when there is none, and never change the buffer.", "quantifier": "every text, pattern and start", "why_tests_cant": "Wrong answers depend on where the pattern would end relative to the text.", "anchors": ["library/Java/Lang/StringBuffer/StringBuffer.cpp: indexOf, lastIndexOf"]}
{"id": "C69", "title": "A copied Random continues as the original would", "statement": "A generator made by copying another answers every later sequence of calls exactly as the original would have.", "quantifier": "every state of the original and every sequence of calls", "why_tests_cant": "The state includes a kept Gaussian that most call sequences never reveal.", "anchors": ["library/Java/Util/Random/Random.cpp: Random(const Random &), nextGaussian"]}
{"id": "C70", "title": "nextBytes fills the array it is given", "statement": "nextBytes(bytes) replaces every element of the array by a random byte and leaves its length as it was.", "quantifier": "every state and every array", "why_tests_cant": "All states and array lengths.", "anchors": ["library/Java/Util/Random/Random.cpp: nextBytes"]}
{"id": "C71", "title": "nextString returns a text of the requested length", "statement": "nextString(length) returns, for every length >= 0, a text of exactly that many alphanumeric characters and touches no other memory.", "quantifier": "every state and every length", "why_tests_cant": "Writes past the end of an array on the stack usually go unnoticed.", "anchors": ["library/Java/Util/Random/Random.cpp: nextString"]}
{"id": "C72", "title": "Random has full period", "statement": "From every state, 2^48 consecutive calls of nextInt() return every 32-bit integer exactly 2^16 times; the sequence never falls into a shorter cycle.", "quantifier": "every state", "why_tests_cant": "2^48 calls cannot be run for every state.", "anchors": ["library/Java/Util/Random/Random.cpp: next, nextInt"]}
{"id": "C73", "title": "Generators created without a seed differ", "statement": "Among up to 2^44 generators created without a seed by any number of threads, no two that read the same clock value start from the same state.", "quantifier": "every number of threads, every interleaving of the creations, every clock value", "why_tests_cant": "Schedules and coinciding clock readings cannot be produced at will.", "anchors": ["library/Java/Util/Random/Random.cpp: Random(), seedUniquifier, initialScramble"]}
{"id": "C74", "title": "Semaphore waiters are not left asleep", "statement": "When permits have been put in and every call that put them in has returned, no thread keeps sleeping in acquire for a permit that is there.", "quantifier": "every number of threads and every interleaving without spurious wake-ups", "why_tests_cant": "The window between looking at the counter and going to sleep is hit only by chance.", "anchors": ["library/Java/Util/Concurrent/Semaphore/Semaphore.cpp: acquire, release"]}
{"id": "C75", "title": "A semaphore's own locks never deadlock and always guard its counter", "statement": "Whenever a thread is inside a call and not asleep, some thread can take a step, and no two threads access the counter at the same time.", "quantifier": "every number of threads, every interleaving, every mix of calls", "why_tests_cant": "Deadlocks and data races depend on the schedule.", "anchors": ["library/Java/Util/Concurrent/Semaphore/Semaphore.cpp: acquire, tryAcquire, release, availablePermits"]}
{"id": "C76", "title": "Malformed UUID text is rejected, either case of digits accepted", "statement": "UUID.fromString accepts hexadecimal digits of either case and refuses every text that is not of the form 8-4-4-4-12.", "quantifier": "every text", "why_tests_cant": "All malformed texts.", "anchors": ["library/Java/Util/UUID/UUID.cpp: fromString", "library/Java/Lang/Long/Long.cpp: decode"]}
{"id": "C77", "title": "UUID.variant returns the RFC 4122 variant", "statement": "variant returns 0, 2, 6 or 7 according to the top bits of clock_seq_hi as in RFC 4122 section 4.1.1.", "quantifier": "every 128-bit value", "why_tests_cant": "2^128 values; arithmetic shifts matter only for half of them.", "anchors": ["library/Java/Util/UUID/UUID.cpp: variant"]}
{"id": "C78", "title": "Binary UUID comparison and null test", "statement": "uuid_compare orders UUIDs as unsigned 128-bit numbers and returns 0 only for equal bytes; uuid_is_null says yes exactly for the all-zero UUID.", "quantifier": "all pairs of 16-byte values", "why_tests_cant": "2^256 pairs; byte order and signedness errors show only for some.", "anchors": ["library/Java/Util/UUID/libuuid/compare.c: uuid_compare", "library/Java/Util/UUID/libuuid/isnull.c: uuid_is_null"]}
{"id": "C79", "title": "Generated UUIDs carry version, variant and payload", "statement": "A random UUID has version 4 and the RFC 4122 variant and keeps the other 122 random bits, also when obtained as UUID.randomUUID; a time-based UUID has version 1 and stores the 60-bit time, clock sequence and node, and uuid_time gives the time back.", "quantifier": "every content of the random buffer; every clock reading, clock sequence and node", "why_tests_cant": "2^122 random contents; tests see a few.", "anchors": ["library/Java/Util/UUID/libuuid/gen_uuid.c: __uuid_generate_random, __uuid_generate_time", "library/Java/Util/UUID/libuuid/uuid_time.c: uuid_time, uuid_type, uuid_variant", "library/Java/Util/UUID/UUID.cpp: randomUUID, timeUUID"]}
{"id": "C80", "title": "Time-based UUIDs of a process are distinct", "statement": "No two calls that generate time-based UUIDs in one process give the same UUID.", "quantifier": "every sequence of clock readings", "why_tests_cant": "Needs bursts of calls within one microsecond and clock steps at exact moments.", "anchors": ["library/Java/Util/UUID/libuuid/gen_uuid.c: get_clock, __uuid_generate_time"]}
{"id": "C81", "title": "One MD5 update may pass any array", "statement": "A single update passing any number of bytes that an int length can describe adds exactly these bytes to the message.", "quantifier": "every message so far and every array of up to 2^31 - 1 bytes", "why_tests_cant": "Arrays of gigabytes at each position of the 64-byte buffer; undefined arithmetic shows no fault on most runs.", "anchors": ["library/Java/Security/MessageDigest/md5.cpp: md5_append"]}
{"id": "C82", "title": "SHA-1 MessageDigest lifecycle", "statement": "For SHA1, digest() returns the digest of the bytes updated since construction or the last reset() or digest(), writes nothing past it, and refused calls, getAlgorithm and getDigestLength change nothing.", "quantifier": "every history of all calls of the interface", "why_tests_cant": "Histories of any length with any chunks.", "anchors": ["library/Java/Security/MessageDigest/MessageDigest.cpp: update, digest, reset", "library/Java/Security/MessageDigest/SHA1MessageDigest.cpp: engineDigest, engineReset"]}
{"id": "C83", "title": "reset() makes an MD5 digest as new", "statement": "Whatever was done before, after reset() and any updates digest() returns the MD5 of the bytes of these updates.", "quantifier": "every history before the reset and every list of chunks after it", "why_tests_cant": "Histories of any length with any chunks.", "anchors": ["library/Java/Security/MessageDigest/MessageDigest.cpp: reset, digest", "library/Java/Security/MessageDigest/MD5MessageDigest.cpp: engineReset, engineDigest"]}
{"id": "C84", "title": "Refused digest calls leave no trace", "statement": "getInstance knows exactly the names MD5 and SHA1 and otherwise throws NoSuchAlgorithmException; a call with a null pointer, no input or too small a buffer throws InterruptedException, and all other calls of the history answer as if it had not been made.", "quantifier": "every name, every history and every position of the refused call in it", "why_tests_cant": "Histories of any length.", "anchors": ["library/Java/Security/MessageDigest/MessageDigest.cpp: getInstance, update, digest"]}
{"id": "C85", "title": "Copies of a MessageDigest are independent", "statement": "Copying a MessageDigest gives a second object: updates of one do not change the digest of the other, and both can be destroyed.", "quantifier": "every digest object in every state", "why_tests_cant": "A double free may go unnoticed; every state is concerned.", "anchors": ["library/Java/Security/MessageDigest/MessageDigest.hpp: MessageDigest", "library/Java/Security/MessageDigest/MessageDigest.cpp: ~MessageDigest"]}
{"id": "C86", "title": "MediaType accepts exactly media type texts", "statement": "valueOf returns a media type exactly for texts of the form type/subtype, or a lone '*', with spaces around and parameters after ';', and returns that type and subtype; the constructor accepts exactly non-empty parts where a wildcard type has a wildcard subtype; everything else gets MediaTypeException.", "quantifier": "every text and every pair of texts", "why_tests_cant": "All texts; the splits depend on the first positions of several characters.", "anchors": ["library/Javax/Ws/Rs/Core/MediaType.cpp: valueOf, MediaType"]}
{"id": "C87", "title": "A parsed MediaType is written and parsed back unchanged", "statement": "If valueOf accepts a text without NUL, valueOf of the toString of the result gives the same media type.", "quantifier": "every accepted text without NUL", "why_tests_cant": "All texts.", "anchors": ["library/Javax/Ws/Rs/Core/MediaType.cpp: valueOf, toString"]}
{"id": "C88", "title": "MediaType compatibility laws", "statement": "isCompatible holds for a media type and itself, for */* and any media type on both sides, and for two media types without wildcards exactly when they are equal.", "quantifier": "every pair of media types", "why_tests_cant": "All pairs of texts.", "anchors": ["library/Javax/Ws/Rs/Core/MediaType.cpp: isCompatible"]}
{"id": "C89", "title": "Integer variables behave as integers", "statement": "In every history of construction, copying, arithmetic, compound assignment, comparison and toString on Integer variables whose results are ints, results are exact (division truncates), a zero divisor throws ArithmeticException and changes nothing, and toString is the decimal text of the current value.", "quantifier": "every history on any number of variables, with aliased operands", "why_tests_cant": "Histories of any length; the text is kept beside the value and can fall behind it.", "anchors": ["library/Java/Lang/Integer/Integer.cpp: operator+, operator/=, operator=, toString, compareTo"]}
{"id": "C90", "title": "Long variables behave as integers", "statement": "The same for Long variables: results within long are exact and toString is the decimal text of the current value.", "quantifier": "every history on any number of variables, with aliased operands", "why_tests_cant": "Histories of any length; the text is kept beside the value and can fall behind it.", "anchors": ["library/Java/Lang/Long/Long.cpp: operator+=, operator=, toString"]}
{"id": "C91", "title": "Short variables behave as integers modulo 2^16", "statement": "In every history on Short variables without zero divisors, results are kept modulo 2^16, comparisons agree with the values and toString is decimal; parseShort(s.toString()) gives s back.", "quantifier": "every history on any number of variables; every short", "why_tests_cant": "Histories of any length.", "anchors": ["library/Java/Lang/Short/Short.cpp: operator+, operator=, toString, parseShort"]}
{"id": "C92", "title": "Division by zero throws", "statement": "Dividing a Bytes, Short, Integer or Long by zero, or taking the remainder, throws ArithmeticException and changes nothing.", "quantifier": "every dividend, both operators and their compound forms", "why_tests_cant": "Undefined division may trap or not.", "anchors": ["library/Java/Lang/Bytes/Bytes.cpp: operator/, operator%", "library/Java/Lang/Short/Short.cpp: operator/", "library/Java/Lang/Integer/Integer.cpp: operator/", "library/Java/Lang/Long/Long.cpp: operator/"]}
{"id": "C93", "title": "Bytes.valueOf can be called again and again", "statement": "Bytes.valueOf(byte) returns the byte at every call in the life of the process.", "quantifier": "every sequence of calls", "why_tests_cant": "A use of freed memory often shows no fault.", "anchors": ["library/Java/Lang/Bytes/Bytes.cpp: valueOf", "library/Java/Lang/Bytes/Bytes.hpp: ByteCache"]}
{"id": "C94", "title": "parseBytes: the byte or NumberFormatException", "statement": "parseBytes(text, radix) returns the value of a numeral between 0 and 255 and throws NumberFormatException for every other text.", "quantifier": "every text and every radix from 2 to 32", "why_tests_cant": "All texts.", "anchors": ["library/Java/Lang/Bytes/Bytes.cpp: parseBytes, valueOf"]}
{"id": "C95", "title": "The Boolean constructor and parseBoolean agree", "statement": "Boolean(text) is true exactly when the text spells \"true\" in any mix of cases, as parseBoolean says.", "quantifier": "every text", "why_tests_cant": "All texts.", "anchors": ["library/Java/Lang/Boolean/Boolean.cpp: Boolean, parseBoolean"]}
{"id": "C96", "title": "parseShort: the short or an exception", "statement": "parseShort returns the value of a decimal, hexadecimal or octal text within short and refuses every other text with an exception.", "quantifier": "every text", "why_tests_cant": "All texts; an uninitialised variable may hold the expected number by chance.", "anchors": ["library/Java/Lang/Short/Short.cpp: parseShort"]}
{"id": "C97", "title": "Concurrent map answers were true during the call", "statement": "Whatever other threads do, the answer of get, getOrDefault, containsKey and remove on a concurrent map is the one the map's contents called for at some moment between the beginning of the call and its return.", "quantifier": "every initial map, every schedule of any number of threads, every call", "why_tests_cant": "The moment may lie before other threads' changes that precede the return.", "anchors": ["library/Java/Util/Concurrent/ConcurrentHashMap/ConcurrentHashMap.hpp: get, getOrDefault, containsKey, remove"]}
{"id": "C98", "title": "Concurrent map calls on other keys do not interfere", "statement": "While no thread puts, removes or conditionally removes a key or clears the map, the mapping of that key stays as it is, and every get, getOrDefault and containsKey of it is answered accordingly, whatever threads do to other keys.", "quantifier": "every initial map, every schedule of any number of threads, every key", "why_tests_cant": "Schedules are unbounded.", "anchors": ["library/Java/Util/Concurrent/ConcurrentHashMap/ConcurrentHashMap.hpp: put, get, remove"]}
{"id": "C99", "title": "A program with one Date", "statement": "In a program that uses a single Date, every history of constructions, setters, getters, comparisons with itself, toString and toLocaleString behaves as a value: setters name a new instant from the fields shown, fields outside their ranges carry over, getters show the Gregorian fields of the instant in the zone, and getTime is the instant.", "quantifier": "every zone of fixed offset, every first instant, every legal history of calls on the one variable", "why_tests_cant": "Histories are unbounded and carrying interacts with every calendar rule.", "anchors": ["library/Java/Util/Date/Date.cpp: Date, setDate, setHours, setMinutes, setMonth, setSeconds, setTime, setYear, getTime, toString, toLocaleString"]}
{"id": "C100", "title": "A Date made from fields shows these fields", "statement": "Date(year, month, date, hrs, min, sec) with fields in their ranges answers each getter with the field given, and getTime with the instant the fields name in the zone.", "quantifier": "every zone of fixed offset, every valid combination of fields", "why_tests_cant": "There are as many combinations as seconds.", "anchors": ["library/Java/Util/Date/Date.cpp: initializeDate, getYear, getMonth, getDate, getHours, getMinutes, getSeconds, getTime"]}
{"id": "C101", "title": "Date.parse reads toString", "statement": "Date.parse(d.toString()) is d.getTime().", "quantifier": "every zone, every instant, every time of day at which it is called", "why_tests_cant": "Names, offsets and years combine without bound.", "anchors": ["library/Java/Util/Date/Date.cpp: parse, toString, getOffsetFromUTC"]}
{"id": "C102", "title": "Date.parse reads toLocaleString", "statement": "Date.parse(d.toLocaleString()) is d.getTime().", "quantifier": "every zone, every instant", "why_tests_cant": "Every hour, month and year is written and read in its own way.", "anchors": ["library/Java/Util/Date/Date.cpp: parse, toLocaleString"]}
{"id": "C103", "title": "toGMTString shows the instant in Greenwich", "statement": "d.toGMTString() shows the fields of the instant in Greenwich, Date.parse of it is d.getTime(), and asking for it changes nothing else.", "quantifier": "every zone, every instant, every later call", "why_tests_cant": "The side effect shows only in later calls.", "anchors": ["library/Java/Util/Date/Date.cpp: toGMTString, getUTCTime, parse"]}
{"id": "C104", "title": "Date.UTC reads fields in Greenwich", "statement": "Date.UTC(year, month, date, hrs, min, sec) is the time of the instant that the fields name in Greenwich, whatever the zone of the machine.", "quantifier": "every zone, every combination of fields", "why_tests_cant": "Tests run in one zone.", "anchors": ["library/Java/Util/Date/Date.cpp: UTC, getUTCTime"]}
{"id": "C105", "title": "A Date keeps its time", "statement": "Date(ms).getTime() is ms.", "quantifier": "every time in milliseconds", "why_tests_cant": "Tests try round numbers.", "anchors": ["library/Java/Util/Date/Date.cpp: Date, getTime"]}
{"id": "C106", "title": "Date.parse answers every text", "statement": "Date.parse of any text returns a time or throws InterruptedException.", "quantifier": "every text", "why_tests_cant": "Texts are unbounded.", "anchors": ["library/Java/Util/Date/Date.cpp: parse, getSequenceNumber, getSequenceChar, removeBracket"]}
{"id": "C107", "title": "Calls on a concurrent map happen at one moment", "statement": "Whatever threads call get, put and remove on one ConcurrentHashMap in parallel, there is a moment between the start and the end of each call such that the answers are those of a plain map on which the calls are made one after the other at these moments.", "quantifier": "every hash function, every number of threads, every history of calls and every interleaving of their critical sections, through displacement and growth of the table", "why_tests_cant": "Interleavings are unbounded and races show only under rare schedules.", "anchors": ["library/Java/Util/Concurrent/ConcurrentHashMap/libcuckoo/cuckoohash_map.hh: find, insert_or_assign, erase, snapshot_and_lock_two, run_cuckoo, cuckoopath_search, cuckoopath_move, cuckoo_fast_double, move_bucket"]}
{"id": "C108", "title": "Calls on a concurrent map are defined", "statement": "In no state that parallel calls can reach does get, put or remove read a pair that is not there, overwrite one, run out of its search queue, or stop with an internal exception.", "quantifier": "every hash function, number of threads, history and interleaving", "why_tests_cant": "The queue bound and the revalidation after the locks were released fail only on rare layouts and schedules.", "anchors": ["library/Java/Util/Concurrent/ConcurrentHashMap/libcuckoo/cuckoohash_map.hh: slot_search, b_queue, cuckoopath_search, cuckoopath_move, rehash_lock", "library/Java/Util/Concurrent/ConcurrentHashMap/libcuckoo/bucket_container.hh: setKV, eraseKV"]}
{"id": "C109", "title": "A concurrent map keeps every pair", "statement": "At every moment the pairs stored in the table are exactly those of the map, each key is stored once, and the sum behind size() is the number of keys: moving pairs to their other bucket, doubling the table and migrating it bit by bit lose and double nothing.", "quantifier": "every reachable state", "why_tests_cant": "Growth needs hundreds of thousands of pairs, and migration is spread over later calls.", "anchors": ["library/Java/Util/Concurrent/ConcurrentHashMap/libcuckoo/cuckoohash_map.hh: cuckoopath_move, cuckoo_fast_double, cuckoo_expand_simple, move_bucket, rehash_lock, size"]}
{"id": "C110", "title": "forEach sees every pair once", "statement": "ConcurrentHashMap.forEach shows its action every pair of the map exactly once until the action returns false, and leaves the map as it is.", "quantifier": "every reachable state and every action that does not call the map", "why_tests_cant": "The layout of the table depends on all earlier calls.", "anchors": ["library/Java/Util/Concurrent/ConcurrentHashMap/ConcurrentHashMap.hpp: forEach", "library/Java/Util/Concurrent/ConcurrentHashMap/libcuckoo/cuckoohash_map.hh: locked_table, templated_iterator"]}
{"id": "C111", "title": "containsValue is exact", "statement": "containsValue is true if and only if some key of the map has the value.", "quantifier": "every reachable state and every value", "why_tests_cant": "The layout of the table depends on all earlier calls.", "anchors": ["library/Java/Util/Concurrent/ConcurrentHashMap/ConcurrentHashMap.hpp: containsValue, forEach"]}
{"id": "C112", "title": "clear empties a concurrent map", "statement": "When clear() has returned and no put has started since, the map is empty: no key is found and size() is 0, and a put beside it takes effect either before or after it.", "quantifier": "every reachable state and every interleaving", "why_tests_cant": "The window lies between two statements of clear().", "anchors": ["library/Java/Util/Concurrent/ConcurrentHashMap/ConcurrentHashMap.hpp: clear", "library/Java/Util/Concurrent/ConcurrentHashMap/libcuckoo/cuckoohash_map.hh: clear, cuckoo_clear, lock_all"]}
{"id": "C113", "title": "Copies of a concurrent map", "statement": "The copy constructor of ConcurrentHashMap gives a map with the same pairs, whatever was done with the original before.", "quantifier": "every reachable state of the original", "why_tests_cant": "The fault is a read of freed memory that depends on the history of the original.", "anchors": ["library/Java/Util/Concurrent/ConcurrentHashMap/ConcurrentHashMap.hpp: ConcurrentHashMap", "library/Java/Util/Concurrent/ConcurrentHashMap/libcuckoo/bucket_container.hh: bucket_container, transfer"]}
{"id": "C114", "title": "put stores every key", "statement": "put on a ConcurrentHashMap stores its pair; it does not fail because of the other keys.", "quantifier": "every reachable state, every key", "why_tests_cant": "The failure needs nine keys with one hash or colliding buckets.", "anchors": ["library/Java/Util/Concurrent/ConcurrentHashMap/ConcurrentHashMap.hpp: put", "library/Java/Util/Concurrent/ConcurrentHashMap/libcuckoo/cuckoohash_map.hh: insert_or_assign, cuckoo_insert_loop, check_resize_validity"]}
{"id": "C115", "title": "Calls on a concurrent map do not block each other for ever", "statement": "No spinlock of the table is held by two threads, and whenever threads are in calls, one of them can go on.", "quantifier": "every number of threads and locks, every interleaving of taking, giving up and releasing locks", "why_tests_cant": "Deadlocks need particular schedules.", "anchors": ["library/Java/Util/Concurrent/ConcurrentHashMap/libcuckoo/cuckoohash_map.hh: lock_one, lock_two, lock_three, lock_all, spinlock, check_hashpower"]}
{"id": "C116", "title": "An action of forEach may use the map", "statement": "A forEach whose action calls a method of the same map ends.", "quantifier": "every map and every action", "why_tests_cant": "A test of it would not end.", "anchors": ["library/Java/Util/Concurrent/ConcurrentHashMap/ConcurrentHashMap.hpp: forEach", "library/Java/Util/Concurrent/ConcurrentHashMap/libcuckoo/cuckoohash_map.hh: lock_table, spinlock"]}
{"id": "C117", "title": "Reading dates with slashes", "statement": "Date.parse of mm/dd/yyyy, with or without hh:mm:ss, is the local instant with these fields; a year of two digits is the year with these last digits among the past 80 years and the next 19, and parsing changes no Date.", "quantifier": "every valid date and time, every spelling of its numbers, every reading of the clock and every zone with a fixed offset", "why_tests_cant": "The year depends on the clock, and the fault shows in Dates that were not touched.", "anchors": ["library/Java/Util/Date/Date.cpp: parse, getYear"]}
{"id": "C118", "title": "Thread.join waits for the function", "statement": "When join() returns, the function of the thread has returned; after one start() it has returned exactly once and is not running.", "quantifier": "every number of calling threads and every schedule of their calls, the started threads and the wake-ups", "why_tests_cant": "Whether join returns early depends on wake-ups that the operating system may deliver at any time.", "anchors": ["library/Java/Lang/Thread/Thread.cpp: join, run", "library/Java/Util/Concurrent/Semaphore/Semaphore.cpp: acquire, release"]}
{"id": "C119", "title": "Thread.join on an ended thread", "statement": "join() on a thread that has ended, or was never started, returns, however often it is called and whatever class the object has.", "quantifier": "every schedule, every history of starts and joins, every object including those of derived classes", "why_tests_cant": "A call that never returns is not seen by a test that makes the call once.", "anchors": ["library/Java/Lang/Thread/Thread.cpp: join, run, start"]}
{"id": "C120", "title": "Thread.isAlive", "statement": "isAlive() answers true exactly from the return of start() to the end of the run, and false after join() has returned.", "quantifier": "every schedule and every moment at which isAlive is called", "why_tests_cant": "The wrong answers come in windows of a few instructions.", "anchors": ["library/Java/Lang/Thread/Thread.cpp: isAlive, run, start"]}
{"id": "C121", "title": "Thread.start runs the function once", "statement": "Each start() makes the function run exactly once; the run goes on whatever other threads do, and a second start() is refused with an exception.", "quantifier": "every schedule and every history of start() and run(), every kind of function", "why_tests_cant": "The number of runs depends on how calls of start interleave with the run.", "anchors": ["library/Java/Lang/Thread/Thread.cpp: start, run, Thread"]}
{"id": "C122", "title": "Destroying a Thread", "statement": "Destroying a thread object waits for its run and wakes the threads that wait for it; afterwards nothing uses the object.", "quantifier": "every schedule of the run, the waiting threads and the destructor", "why_tests_cant": "Use of a destroyed object may go unnoticed in a test.", "anchors": ["library/Java/Lang/Thread/Thread.cpp: ~Thread, detach, join"]}
{"id": "C123", "title": "Thread.detach", "statement": "detach() detaches a started thread once; a second call is refused with IllegalArgumentException and so is a call before start().", "quantifier": "every history of calls and every state of the thread", "why_tests_cant": "It depends on the history of all calls, by all threads.", "anchors": ["library/Java/Lang/Thread/Thread.cpp: detach"]}
{"id": "C124", "title": "Thread.currentThread and getId", "statement": "In a run currentThread() is the object and getId() the number of the running thread; outside runs currentThread() is the object of the calling thread, never a destroyed one.", "quantifier": "every schedule, every calling thread and every moment of the call", "why_tests_cant": "The values are stored by the run itself, at a moment that the caller cannot see.", "anchors": ["library/Java/Lang/Thread/Thread.cpp: currentThread, getId, run"]}
{"id": "C125", "title": "ConcurrentLinkedQueue hands each element over once", "statement": "Every element poll() returns was put in by an add() that had ended, no add() answers for two of them, and once as many came out as went in every add() is answered for.", "quantifier": "every number of threads, every history of calls and every interleaving of their accesses to memory", "why_tests_cant": "A lost or doubled element needs a rare interleaving of several threads at the border of a block of 32 elements.", "anchors": ["library/Java/Util/Concurrent/ConcurrentLinkedQueue/ConcurrentLinkedQueue.hpp: add, poll", "library/Java/Util/Concurrent/ConcurrentLinkedQueue/concurrentqueue.hpp: try_dequeue, ImplicitProducer::enqueue, ImplicitProducer::dequeue"]}
{"id": "C126", "title": "ConcurrentLinkedQueue keeps the order of each adding thread", "statement": "The elements one thread added come out in the order it added them: a poll() that ended before another began never returned the later one of two, and no element is passed over.", "quantifier": "every number of threads, every history and every interleaving", "why_tests_cant": "Order is a property of pairs of calls in all schedules.", "anchors": ["library/Java/Util/Concurrent/ConcurrentLinkedQueue/ConcurrentLinkedQueue.hpp: add, poll", "library/Java/Util/Concurrent/ConcurrentLinkedQueue/concurrentqueue.hpp: ImplicitProducer::dequeue"]}
{"id": "C127", "title": "ConcurrentLinkedQueue calls are defined and never wait", "statement": "No add(), poll(), size() or isEmpty() reads an empty slot, follows a null pointer, builds over a live element or waits for another thread; add() puts the element in, as its answer says.", "quantifier": "every number of threads, every history, every interleaving and every choice of the free list", "why_tests_cant": "Undefined behaviour may go unnoticed in a test, and waiting shows only when the other thread is stopped at the wrong place.", "anchors": ["library/Java/Util/Concurrent/ConcurrentLinkedQueue/ConcurrentLinkedQueue.hpp: add, poll, size, isEmpty", "library/Java/Util/Concurrent/ConcurrentLinkedQueue/concurrentqueue.hpp: insert_block_index_entry, get_block_index_entry_for_index, new_block_index, requisition_block"]}
{"id": "C128", "title": "ConcurrentLinkedQueue calls end", "statement": "Every call ends after a number of its own steps that depends on the number of adding threads alone, whatever the others do.", "quantifier": "every state, every call and every schedule of the other threads", "why_tests_cant": "A test cannot try all schedules of the others, nor tell a long loop from an endless one.", "anchors": ["library/Java/Util/Concurrent/ConcurrentLinkedQueue/concurrentqueue.hpp: try_dequeue, ImplicitProducer::enqueue, ImplicitProducer::dequeue, size_approx"]}
{"id": "C129", "title": "ConcurrentLinkedQueue.poll finds what is there", "statement": "A poll() on a queue that holds something during the whole call returns an element.", "quantifier": "every history and every schedule of other adds, polls and counts", "why_tests_cant": "The counters of tickets are off only while other polls are half-way.", "anchors": ["library/Java/Util/Concurrent/ConcurrentLinkedQueue/ConcurrentLinkedQueue.hpp: poll", "library/Java/Util/Concurrent/ConcurrentLinkedQueue/concurrentqueue.hpp: try_dequeue, ImplicitProducer::dequeue"]}
{"id": "C130", "title": "ConcurrentLinkedQueue.size and isEmpty", "statement": "size() is the number of elements in the queue and isEmpty() tells whether that is zero, at some moment during the call.", "quantifier": "every history, every number of elements and every schedule of other calls", "why_tests_cant": "The counts are read producer by producer while other threads move on.", "anchors": ["library/Java/Util/Concurrent/ConcurrentLinkedQueue/ConcurrentLinkedQueue.hpp: size, isEmpty", "library/Java/Util/Concurrent/ConcurrentLinkedQueue/concurrentqueue.hpp: size_approx"]}
{"id": "C131", "title": "ConcurrentLinkedQueue is first in, first out", "statement": "Elements come out in the order in which they went in, whichever threads added them.", "quantifier": "every history of calls made one after the other, by any threads", "why_tests_cant": "The order depends on how many threads ever added and on how much each has in the queue.", "anchors": ["library/Java/Util/Concurrent/ConcurrentLinkedQueue/ConcurrentLinkedQueue.hpp: add, poll", "library/Java/Util/Concurrent/ConcurrentLinkedQueue/concurrentqueue.hpp: try_dequeue"]}
{"id": "C132", "title": "The other members of ConcurrentLinkedQueue", "statement": "offer() adds like add(), clear() empties the queue, contains(), remove() and removeAll() tell what is in it, peek() and element() show the oldest element.", "quantifier": "every state of the queue and every argument", "why_tests_cant": "The claim is about all states of the queue.", "anchors": ["library/Java/Util/Concurrent/ConcurrentLinkedQueue/ConcurrentLinkedQueue.hpp: offer, clear, contains, remove, removeAll, peek, element"]}
{"id": "C133", "title": "ConcurrentLinkedQueue.poll of an empty queue", "statement": "The caller of poll() can tell an empty queue from any element.", "quantifier": "every element type and every value", "why_tests_cant": "It ranges over all element types and all values that can be in the queue.", "anchors": ["library/Java/Util/Concurrent/ConcurrentLinkedQueue/ConcurrentLinkedQueue.hpp: poll"]}
{"id": "C134", "title": "doubleToLongBits and floatToIntBits give the IEEE 754 bits", "statement": "For every value, doubleToLongBits(x) and floatToIntBits(x) are the 64 or 32 bits of x in the layout of IEEE 754, as a signed integer; NaN gives the bits of a NaN.", "quantifier": "every double and every float", "why_tests_cant": "There are 2^64 values; the errors are in ranges that a sample of round numbers does not touch.", "anchors": ["library/Java/Lang/Double/Double.cpp: doubleToLongBits, doubleToRawLongBits, doubleToBinary64StringType", "library/Java/Lang/Float/Float.cpp: floatToIntBits, floatToRawIntBits, floatToBinary32StringType"]}
{"id": "C135", "title": "compare and the operators order Double and Float as Java does", "statement": "compare(x, y) is negative, zero or positive as x is before, at or after y on the real line, with minus zero before zero and NaN after everything; compareTo, <, >, <= and >= agree.", "quantifier": "every pair of values", "why_tests_cant": "An order must hold for every pair; a test takes a few.", "anchors": ["library/Java/Lang/Double/Double.cpp: compare, compareTo, operator<, operator>", "library/Java/Lang/Float/Float.cpp: compare, compareTo, operator<, operator>"]}
{"id": "C136", "title": "equals of Double and Float is an equivalence that hashCode respects", "statement": "equals is reflexive, symmetric and transitive, holds exactly when compare gives 0, tells values with different bits apart, and equal values have equal hash codes.", "quantifier": "every value, pair and triple of values", "why_tests_cant": "The laws range over pairs and triples of 2^64 values.", "anchors": ["library/Java/Lang/Double/Double.cpp: equals, hashCode, operator==", "library/Java/Lang/Float/Float.cpp: equals, hashCode, operator=="]}
{"id": "C137", "title": "longBitsToDouble and intBitsToFloat give back the value of the bits", "statement": "longBitsToDouble(b) and intBitsToFloat(b) are the values whose IEEE 754 bits are b; longBitsToDouble(doubleToLongBits(x)) is x.", "quantifier": "every long and every int", "why_tests_cant": "There are 2^64 patterns of bits.", "anchors": ["library/Java/Lang/Double/Double.cpp: longBitsToDouble, longBitsToBinary64StringType, binary64StringTypeToDouble", "library/Java/Lang/Float/Float.cpp: intBitsToFloat"]}
{"id": "C138", "title": "isNaN, isInfinite and isFinite tell the kinds of values apart", "statement": "isNaN(x), isInfinite(x) and isFinite(x) hold exactly for the patterns of bits IEEE 754 calls NaN, infinite and finite: exactly one of them holds.", "quantifier": "every double and every float", "why_tests_cant": "There are 2^64 patterns of bits.", "anchors": ["library/Java/Lang/Double/Double.cpp: isNaN, isInfinite, isFinite", "library/Java/Lang/Float/Float.cpp: isNaN, isInfinite, isFinite"]}
{"id": "C139", "title": "MAX_VALUE, MIN_VALUE and MIN_NORMAL of Double and Float", "statement": "MAX_VALUE is the largest finite value, MIN_VALUE the smallest above zero, MIN_NORMAL the smallest normal one.", "quantifier": "every value of the type, against the constants", "why_tests_cant": "Being the largest or the smallest is a claim about every value.", "anchors": ["library/Java/Lang/Double/Double.cpp: MAX_VALUE, MIN_VALUE, MIN_NORMAL", "library/Java/Lang/Float/Float.cpp: MAX_VALUE, MIN_VALUE, MIN_NORMAL"]}
{"id": "C140", "title": "intValue, longValue, shortValue and byteValue of Double and Float", "statement": "The conversions drop the fraction when the result fits the type; NaN gives 0 and what does not fit the nearest number of the type.", "quantifier": "every double and every float", "why_tests_cant": "The results depend on ranges at the edges of each type.", "anchors": ["library/Java/Lang/Double/Double.cpp: intValue, longValue, shortValue, byteValue", "library/Java/Lang/Float/Float.cpp: intValue, longValue, shortValue, byteValue"]}
{"id": "C141", "title": "Math.abs, max, min and signum of floating point values", "statement": "abs drops the sign, also of minus zero; max and min give NaN when an argument is NaN and order minus zero below zero; signum gives the sign, and zeros and NaN as they are.", "quantifier": "every value and every pair of values", "why_tests_cant": "The claims range over pairs of 2^64 values, special ones included.", "anchors": ["library/Java/Lang/Math/Math.cpp: abs, max, min, signum"]}
{"id": "C142", "title": "Math.getExponent and Math.ulp", "statement": "getExponent(x) is the exponent in the bits of x, without its bias; ulp(x) is the distance from x to the next value of larger magnitude.", "quantifier": "every double and every float", "why_tests_cant": "The cases differ by ranges of exponents; a test visits a few.", "anchors": ["library/Java/Lang/Math/Math.cpp: getExponent, ulp, powerOfTwoD, powerOfTwoF"]}
{"id": "C143", "title": "Math.nextDown is the value just below", "statement": "nextDown(x) is below x and no value lies between them, for every x but NaN and minus infinity.", "quantifier": "every double and every float", "why_tests_cant": "That nothing lies between is a claim about every value.", "anchors": ["library/Java/Lang/Math/Math.cpp: nextDown"]}
{"id": "C144", "title": "Math.round rounds to the nearest integer, halves up", "statement": "round(x) is floor(x + 1/2); NaN gives 0 and what does not fit the nearest number of the type.", "quantifier": "every double and every float", "why_tests_cant": "Halves and the edges of the type are easy to miss among 2^64 values.", "anchors": ["library/Java/Lang/Math/Math.cpp: round"]}
{"id": "C145", "title": "Making, copying and assigning a Double is defined for every value", "statement": "For every double, finite or not, Double(x), the copy, the assignment and charValue() stay inside the memory they allocate for the text and keep the value.", "quantifier": "every double, infinities and NaN included", "why_tests_cant": "The largest values have texts of more than 300 digits; a test of usual values never comes near the end of the buffer.", "anchors": ["library/Java/Lang/Double/Double.cpp: Double(double), operator=, charValue"]}
{"id": "C146", "title": "The text of a Double or Float is the decimal nearest to its value", "statement": "toString() is a decimal number that differs from the value by at most half of its last place, with the digits needed to tell the value from its neighbours; infinite values and NaN are Infinity, -Infinity and NaN.", "quantifier": "every double and float", "why_tests_cant": "There are 2^64 doubles, and the values where rounding goes wrong are rare.", "anchors": ["library/Java/Lang/Double/Double.cpp: Double(double), toString", "library/Java/Lang/Float/Float.cpp: Float(float), toString"]}
{"id": "C147", "title": "Parsing decimal text gives the nearest value", "statement": "parseDouble and parseFloat of a decimal number, with optional sign, fraction and exponent, give the nearest value of the type, of two equally near the even one, and an infinite one beyond the largest.", "quantifier": "every decimal text of any length, both types", "why_tests_cant": "The hard cases are decimals of hundreds of digits next to the middle of two values.", "anchors": ["library/Java/Lang/Double/Double.cpp: parseDouble, valueOf", "library/Java/Lang/Float/Float.cpp: parseFloat, valueOf"]}
{"id": "C148", "title": "A value printed and parsed is the same value", "statement": "parseDouble(Double(x).toString()) is x for every double x, and likewise for Float.", "quantifier": "every double and float", "why_tests_cant": "Which values survive depends on how dense they are compared with the printed places.", "anchors": ["library/Java/Lang/Double/Double.cpp: Double(double), toString, parseDouble", "library/Java/Lang/Float/Float.cpp: Float(float), toString, parseFloat"]}
{"id": "C149", "title": "Equal Doubles and Floats have equal texts and equal hashes", "statement": "Two objects with equal values have equal texts, and so the same hash in hash containers, however they were made.", "quantifier": "every value and every way to make, copy or assign the objects", "why_tests_cant": "All pairs of ways to make an object and all values.", "anchors": ["library/Java/Lang/Double/Double.cpp: Double, operator=, toString", "library/Java/Lang/Double/Double.hpp: hash", "library/Java/Lang/Float/Float.cpp: Float, operator=, toString"]}
{"id": "C150", "title": "Compound assignment changes the object", "statement": "After a += b, and likewise -=, *= and /=, a has the value of the operation.", "quantifier": "every pair of objects and every operation", "why_tests_cant": "All pairs of values and operations.", "anchors": ["library/Java/Lang/Double/Double.cpp: operator+=, operator-=, operator*=, operator/=", "library/Java/Lang/Float/Float.cpp: operator+=, operator-="]}
{"id": "C151", "title": "Text that is no number is refused", "statement": "parseDouble and parseFloat of text that is not a number as a whole throw and never read memory that was not written.", "quantifier": "every text that is not a decimal number", "why_tests_cant": "The set of malformed texts is infinite; undefined behaviour may look like a result.", "anchors": ["library/Java/Lang/Double/Double.cpp: parseDouble, valueOf", "library/Java/Lang/Float/Float.cpp: parseFloat, valueOf"]}
{"id": "C152", "title": "A short decimal parsed and printed is the same number", "statement": "The text of parseDouble(t) denotes the same number as t for decimals of at most 15 significant digits.", "quantifier": "every decimal text of at most 15 significant digits", "why_tests_cant": "There are more than 10^15 of them at every scale.", "anchors": ["library/Java/Lang/Double/Double.cpp: parseDouble, toString", "library/Java/Lang/Float/Float.cpp: parseFloat, toString"]}
{"id": "C153", "title": "The semaphore of the blocking queue hands out what was put in, no more and no less", "statement": "At every moment the permits that calls of wait, tryWait, waitMany and tryWaitMany have got are at most the initial permits and those of the calls of signal begun so far. When no call is running the count, and the answer of availableApprox, is exactly what was put in less what was taken.", "quantifier": "every number of threads, every mix of calls and every schedule", "why_tests_cant": "The accounts must balance in every interleaving of compare-and-exchange loops, spinning, sleeping and time-outs.", "anchors": ["library/Java/Util/Concurrent/LinkedBlockingQueue/lightweightsemaphore.hpp: LightweightSemaphore::wait, LightweightSemaphore::tryWait, LightweightSemaphore::waitMany, LightweightSemaphore::tryWaitMany, LightweightSemaphore::signal, LightweightSemaphore::availableApprox"]}
{"id": "C154", "title": "No wake-up of the semaphore is lost", "statement": "If a call is waiting and no thread can take a step, every permit ever put in has been taken. While no call of signal is running and permits are free, every sleeper can wake up with one. A call of signal never makes more posts than calls are waiting.", "quantifier": "every schedule of every number of threads", "why_tests_cant": "A lost wake-up needs one particular interleaving of a signal, a wait and a time-out.", "anchors": ["library/Java/Util/Concurrent/LinkedBlockingQueue/lightweightsemaphore.hpp: LightweightSemaphore::signal, LightweightSemaphore::waitWithPartialSpinning, LightweightSemaphore::waitManyWithPartialSpinning"]}
{"id": "C155", "title": "A timed wait ends when its time is up", "statement": "A call of wait or waitMany with a timeout returns within a bounded number of its own steps after the timeout has passed, whatever the other threads do.", "quantifier": "every schedule and every moment at which the other threads stand still", "why_tests_cant": "The wait that does not end needs another thread to be suspended between two particular instructions.", "anchors": ["library/Java/Util/Concurrent/LinkedBlockingQueue/lightweightsemaphore.hpp: LightweightSemaphore::waitWithPartialSpinning, LightweightSemaphore::waitManyWithPartialSpinning"]}
{"id": "C156", "title": "Calls of the semaphore return results of their kind", "statement": "wait() returns only with a permit. waitMany(max) for any max that is not negative returns between one and max permits, tryWaitMany(max) between none and max. tryWait and tryWaitMany do not come back empty-handed when permits were there all the time.", "quantifier": "every schedule and every parameter", "why_tests_cant": "Which result comes depends on the interleaving.", "anchors": ["library/Java/Util/Concurrent/LinkedBlockingQueue/lightweightsemaphore.hpp: LightweightSemaphore::wait, LightweightSemaphore::tryWait, LightweightSemaphore::waitMany, LightweightSemaphore::tryWaitMany"]}
{"id": "C157", "title": "Calls of the semaphore that need not wait are short", "statement": "A call for permits that are there, with no one interfering, takes two steps and gets the smaller of what it asks for and what there is. A call of signal(n) is over after at most n + 1 steps of its own, whatever the other threads do.", "quantifier": "every state of the semaphore, every parameter and, for signal, every schedule", "why_tests_cant": "A bound on the steps must hold in every interleaving.", "anchors": ["library/Java/Util/Concurrent/LinkedBlockingQueue/lightweightsemaphore.hpp: LightweightSemaphore::tryWait, LightweightSemaphore::tryWaitMany, LightweightSemaphore::signal, Semaphore::signal"]}
{"id": "C158", "title": "The deadline of a timed wait is right", "statement": "The time handed to sem_timedwait is a valid timespec and lies exactly the timeout after the present time.", "quantifier": "every present time and every timeout", "why_tests_cant": "The carry of nanoseconds into seconds happens only for some pairs of times.", "anchors": ["library/Java/Util/Concurrent/LinkedBlockingQueue/lightweightsemaphore.hpp: Semaphore::timed_wait"]}
{"id": "C159", "title": "The blocking queue loses no item and hands none out twice", "statement": "At every moment each item is, as often as it was put in, either in the queue or handed out to exactly one call.", "quantifier": "every number of threads, every mix of single, bulk, timed and waiting calls and every schedule", "why_tests_cant": "Must hold in every interleaving.", "anchors": ["library/Java/Util/Concurrent/LinkedBlockingQueue/blockingconcurrentqueue.hpp: enqueue, enqueue_bulk, try_dequeue, try_dequeue_bulk, wait_dequeue, wait_dequeue_bulk, wait_dequeue_timed, wait_dequeue_bulk_timed"]}
{"id": "C160", "title": "A call that got past the semaphore finds its items", "statement": "The queue always holds at least as many items as all the calls past the semaphore are still to get, so that their loops end as soon as the inner queue gives what is there.", "quantifier": "every schedule", "why_tests_cant": "The loops have no other exit; a miscount in one interleaving would make them spin for ever.", "anchors": ["library/Java/Util/Concurrent/LinkedBlockingQueue/blockingconcurrentqueue.hpp: try_dequeue, try_dequeue_bulk, wait_dequeue, wait_dequeue_bulk"]}
{"id": "C161", "title": "No one waits for an item that is there", "statement": "If a call is waiting and no thread can do anything, the blocking queue is empty.", "quantifier": "every schedule", "why_tests_cant": "A lost wake-up needs one particular interleaving.", "anchors": ["library/Java/Util/Concurrent/LinkedBlockingQueue/blockingconcurrentqueue.hpp: enqueue, enqueue_bulk, wait_dequeue, wait_dequeue_bulk"]}
{"id": "C162", "title": "The size of an idle blocking queue is exact", "statement": "Asked while no other call is running, size_approx() is the number of items in the queue.", "quantifier": "every history of calls", "why_tests_cant": "Must hold after every history, with failed, timed-out and bulk calls in it.", "anchors": ["library/Java/Util/Concurrent/LinkedBlockingQueue/blockingconcurrentqueue.hpp: size_approx"]}
{"id": "C163", "title": "A call on an idle blocking queue that is not empty does not wait", "statement": "A single, bulk, waiting or timed call for items with no other call running gets as many as it asks for or as there are, whichever is less, and leaves the others.", "quantifier": "every history of calls, every kind of call and every max below 2^63", "why_tests_cant": "Must hold after every history.", "anchors": ["library/Java/Util/Concurrent/LinkedBlockingQueue/blockingconcurrentqueue.hpp: try_dequeue, try_dequeue_bulk, wait_dequeue, wait_dequeue_bulk, wait_dequeue_timed, wait_dequeue_bulk_timed"]}
{"id": "C164", "title": "Calls of the blocking queue return results of their kind for every parameter", "statement": "wait_dequeue gets exactly one item, bulk calls at most max, wait_dequeue_bulk at least one if max is not 0; a bulk call with max 0 returns 0 and one with the largest size_t takes what is there.", "quantifier": "every schedule and every value of max", "why_tests_cant": "max ranges over 2^64 values and the results depend on the interleaving.", "anchors": ["library/Java/Util/Concurrent/LinkedBlockingQueue/blockingconcurrentqueue.hpp: wait_dequeue, try_dequeue_bulk, wait_dequeue_bulk, wait_dequeue_bulk_timed"]}
{"id": "C165", "title": "A free block has one owner", "statement": "Blocks of the queue are made, given back to its pool of free blocks and taken from it by any number of threads at once. A block is never handed to a thread while another one owns it, and only blocks that were made are handed out.", "quantifier": "every number of threads up to 2^31 - 2, every mix of calls and every schedule", "why_tests_cant": "Handing out a block twice takes the reuse of an address between a load and an exchange (ABA), in one particular interleaving of three or more calls.", "anchors": ["library/Java/Util/Concurrent/ConcurrentLinkedQueue/concurrentqueue.hpp: FreeList::add, FreeList::try_get, FreeList::add_knowing_refcount_is_zero"]}
{"id": "C166", "title": "No free block is lost", "statement": "When no call is running, the pool holds exactly the blocks that were given back and not taken since, each once, in a proper list. While calls are running, a block that is neither owned nor on the list is one that a running call works on.", "quantifier": "every schedule of every number of threads", "why_tests_cant": "A block is lost when the last of several threads that look at it is the one that has to put it back and does not.", "anchors": ["library/Java/Util/Concurrent/ConcurrentLinkedQueue/concurrentqueue.hpp: FreeList::add, FreeList::try_get, FreeList::add_knowing_refcount_is_zero"]}
{"id": "C167", "title": "The pool of free blocks never fails an assertion", "statement": "The assertion in try_get holds whenever it is reached, and the reference counts never run into the bit above them.", "quantifier": "every schedule of every number of threads up to 2^31 - 2", "why_tests_cant": "An assertion that holds in the tests can still fail in another interleaving.", "anchors": ["library/Java/Util/Concurrent/ConcurrentLinkedQueue/concurrentqueue.hpp: FreeList::try_get"]}
{"id": "C168", "title": "The pool of free blocks says it is empty only when it is", "statement": "A call of try_get comes back without a block only if the list of free blocks was empty at some moment of the call.", "quantifier": "every schedule of every number of threads", "why_tests_cant": "A wrong answer needs the head to change at one particular step of the call.", "anchors": ["library/Java/Util/Concurrent/ConcurrentLinkedQueue/concurrentqueue.hpp: FreeList::try_get"]}
{"id": "C169", "title": "Threads that stand still do not hold up the pool of free blocks", "statement": "Wherever the other threads have been stopped, in the middle of whatever call, a call that runs alone from there is over within 28 steps.", "quantifier": "every reachable state of every number of threads, every call and every point in it", "why_tests_cant": "Tests cannot stop threads at every instruction in every combination.", "anchors": ["library/Java/Util/Concurrent/ConcurrentLinkedQueue/concurrentqueue.hpp: FreeList::add, FreeList::try_get, FreeList::add_knowing_refcount_is_zero"]}
{"id": "C170", "title": "A pool of free blocks used by one thread at a time is a stack", "statement": "With no other call running, a block that is given back goes on top after five steps, and try_get takes the top after seven and leaves the rest; from an empty pool it returns nothing after one.", "quantifier": "every reachable state at rest and every block", "why_tests_cant": "It must hold for lists of every length and every history that led there.", "anchors": ["library/Java/Util/Concurrent/ConcurrentLinkedQueue/concurrentqueue.hpp: FreeList::add, FreeList::try_get, FreeList::add_knowing_refcount_is_zero"]}
{"id": "C171", "title": "A thread keeps its place in the queue", "statement": "The first successful add of a thread to the lock-free queue gives the thread a producer (a queue of its own inside the queue). From then on every call of that thread uses that same producer: never another one, and never a failure to find it, even when the table of producers is being replaced by a bigger one at the time. This is what keeps the items of one thread in their order.", "quantifier": "every hash function, every number of threads, every schedule and every pattern of failed allocations", "why_tests_cant": "A second producer for a thread would need a key to be missed behind a slot filled at the same moment, or while the table is replaced.", "anchors": ["library/Java/Util/Concurrent/ConcurrentLinkedQueue/concurrentqueue.hpp: get_or_add_implicit_producer, ImplicitProducerHash"]}
{"id": "C172", "title": "Two threads never share a producer", "statement": "Two threads that add to the lock-free queue at the same time are never given the same producer, whose operations are not safe for two threads.", "quantifier": "every hash function, every number of threads, every schedule", "why_tests_cant": "A clash would need two threads to race for one slot of the table.", "anchors": ["library/Java/Util/Concurrent/ConcurrentLinkedQueue/concurrentqueue.hpp: get_or_add_implicit_producer"]}
{"id": "C173", "title": "No producer is lost", "statement": "When no call is running, the producers that were made are exactly the ones that threads were given: none is made and forgotten.", "quantifier": "every hash function, every number of threads, every schedule and every pattern of failed allocations", "why_tests_cant": "A producer is lost when an insertion is overtaken at one particular step.", "anchors": ["library/Java/Util/Concurrent/ConcurrentLinkedQueue/concurrentqueue.hpp: get_or_add_implicit_producer"]}
{"id": "C174", "title": "The table of producers is never full", "statement": "Whatever the number of threads that insert at once, and while the table is being replaced, every table has a free slot, so that a search in it ends: it looks at no slot twice.", "quantifier": "every hash function, every number of threads, every schedule", "why_tests_cant": "The comment in the code claims it; it depends on how many threads count themselves before any of them inserts.", "anchors": ["library/Java/Util/Concurrent/ConcurrentLinkedQueue/concurrentqueue.hpp: get_or_add_implicit_producer"]}
{"id": "C175", "title": "A call finds no producer only without memory", "statement": "Looking up or making a thread's producer fails only if an allocation made by this very call failed.", "quantifier": "every hash function, every number of threads, every schedule and every pattern of failed allocations", "why_tests_cant": "A failure for another reason would show up in some interleavings only.", "anchors": ["library/Java/Util/Concurrent/ConcurrentLinkedQueue/concurrentqueue.hpp: get_or_add_implicit_producer"]}
{"id": "C176", "title": "A thread with a producer never waits", "statement": "Once a thread has its producer, looking it up ends after a number of its own steps that depends only on the sizes of the tables, whatever other threads do, even if they stop for ever in the middle of a call.", "quantifier": "every reachable state, every continuation of the schedule", "why_tests_cant": "Tests cannot stop a thread at every step for ever.", "anchors": ["library/Java/Util/Concurrent/ConcurrentLinkedQueue/concurrentqueue.hpp: get_or_add_implicit_producer"]}
{"id": "C177", "title": "The first call of a thread ends", "statement": "The first call of a thread ends when it runs by itself, wherever the other threads stand still.", "quantifier": "every reachable state, every pattern of failed allocations", "why_tests_cant": "Whether it ends depends on where another thread stands still; tests cannot place it.", "anchors": ["library/Java/Util/Concurrent/ConcurrentLinkedQueue/concurrentqueue.hpp: get_or_add_implicit_producer"]}
{"id": "C178", "title": "The table of producers stays small", "statement": "However many calls are made, no table of producers gets more slots than 4 per thread plus 32, and each table is at least twice as big as the one before, so that all of them together are at most twice the newest.", "quantifier": "every hash function, every number of threads, every schedule", "why_tests_cant": "Growth out of proportion would need many threads to count themselves at once.", "anchors": ["library/Java/Util/Concurrent/ConcurrentLinkedQueue/concurrentqueue.hpp: get_or_add_implicit_producer"]}
{"id": "C179", "title": "An array behaves as a growing list", "statement": "For any sequence of creating, appending, reading, writing and asking for the length, an Array gives the results of a growing list; an index outside, negative ones included, throws and changes nothing, and a negative size throws.", "quantifier": "every initial content, every sequence of calls", "why_tests_cant": "The field `length` is kept apart from the elements; a test cannot try every history, nor sizes near 2^31.", "anchors": ["library/Kernel/Java.hpp: Array"]}
{"id": "C180", "title": "A loop over an array sees each element once", "statement": "A range-based for loop over an Array sees each element the array had when the loop started, once and in order, even if the body appends to the array.", "quantifier": "every array, every body that only appends", "why_tests_cant": "Iterators of a growing vector go wrong only for some sizes and capacities.", "anchors": ["library/Kernel/Java.hpp: ArrayIterator, Array::begin, Array::end"]}
{"id": "C181", "title": "A program starts with its arguments and ends with its status", "statement": "Application calls the given function once with exactly the arguments of main; it returns 0 if the function returns, else 1 after printing one line with the message of what was thrown.", "quantifier": "every list of arguments, every way the function can end", "why_tests_cant": "Every kind of thrown value and every list of arguments must be covered.", "anchors": ["library/Java/Lang/Object/Object.cpp: Application"]}
{"id": "C182", "title": "equals is an equivalence that agrees with hashCode and tells values apart", "statement": "equals is reflexive, symmetric and transitive, equal objects have equal hash codes, and objects are equal only if they are the same object or hold the same value of the same class.", "quantifier": "every two or three objects, at every address, of every value", "why_tests_cant": "Collisions depend on addresses and on pairs of 128-bit values.", "anchors": ["library/Java/Lang/Object/Object.cpp: Object::equals, Object::hashCode", "library/Java/Util/UUID/UUID.cpp: UUID::hashCode"]}
{"id": "C183", "title": "instanceof follows inheritance", "statement": "instanceof<Base>(object) is true exactly if the class of the object is Base or derives from it.", "quantifier": "every class hierarchy, every two classes of it", "why_tests_cant": "It quantifies over all class hierarchies a user may write.", "anchors": ["library/Kernel/Common.hpp: instanceof"]}
{"id": "C184", "title": "Enum constants are totally ordered by their number", "statement": "compareTo orders constants of an enumeration by their numbers, is antisymmetric, and is zero exactly if equals holds.", "quantifier": "every two constants with any numbers", "why_tests_cant": "The difference of two numbers can overflow.", "anchors": ["library/Java/Lang/Enum/Enum.hpp: Enum::compareTo, Enum::equals"]}
{"id": "C185", "title": "A throwable keeps its message and its cause", "statement": "getMessage and getCause return what was given to the constructor, an empty message and no cause if nothing was given.", "quantifier": "every constructor, every message and cause", "why_tests_cant": "A field never set holds an arbitrary value, which in a test is often zero.", "anchors": ["library/Java/Lang/Throwable/Throwable.cpp: Throwable::Throwable, Throwable::getMessage, Throwable::getCause"]}
{"id": "C186", "title": "A Set holds what was added, once, in order", "statement": "After any sequence of calls, iterating a Set gives, in increasing order, exactly one of each kind of the elements added since the last clear, namely the first added; size and isEmpty agree.", "quantifier": "every strict weak order on the elements, every sequence of calls", "why_tests_cant": "All histories and all orders, those that identify distinct elements included.", "anchors": ["library/Java/Util/Set/Set.hpp: Set::add, Set::clear, Set::size, Set::isEmpty"]}
{"id": "C187", "title": "A Set answers truly", "statement": "add tells whether the element was new, contains whether it is there, remove removes it, addAll, removeAll and retainAll do what their names say, equals compares contents.", "quantifier": "every set, every element, every collection", "why_tests_cant": "Each answer must be right for every content.", "anchors": ["library/Java/Util/Set/Set.hpp: Set::add, Set::contains, Set::remove, Set::addAll, Set::equals"]}
{"id": "C188", "title": "A URL has the parts of its text", "statement": "A URL made from a text has the protocol, host, port, path and query in that text; a copy has the same parts; its text puts the parts together again.", "quantifier": "every text, every URL", "why_tests_cant": "Every text and every combination of missing parts; a member never assigned holds an arbitrary value.", "anchors": ["library/Java/Net/URL/URL.cpp: URL::URL, URL::toString, URL::getPort"]}
{"id": "C189", "title": "A connection gives back its settings", "statement": "A connection can be made from any URL and gives, for each setting, the value assigned last, or a fixed initial value if none was assigned.", "quantifier": "every URL, every sequence of assignments", "why_tests_cant": "Settings never assigned hold arbitrary values that in a test are often zero.", "anchors": ["library/Java/Net/URLConnection/URLConnection.cpp: URLConnection::URLConnection, URLConnection::getReadTimeout, URLConnection::getUseCaches"]}
{"id": "C190", "title": "A formatted date is its pattern filled in", "statement": "Formatting a date gives the pattern with each conversion replaced by the field of the date in the zone of the format, whatever the zone of the process.", "quantifier": "every pattern, every zone, every date, every conversion text", "why_tests_cant": "Length limits and blanks matter for some patterns and dates only.", "anchors": ["library/Java/Text/SimpleDateFormat/SimpleDateFormat.cpp: SimpleDateFormat::format"]}
{"id": "C191", "title": "Formatting changes nothing else", "statement": "Formatting a date changes no date, not even their fields, and leaves the zone of the process as it was.", "quantifier": "every date, every other date, every zone of the process before", "why_tests_cant": "The change is in memory shared by all dates and in the environment; a test of the result does not see it.", "anchors": ["library/Java/Text/SimpleDateFormat/SimpleDateFormat.cpp: SimpleDateFormat::format", "library/Java/Util/Date/Date.cpp: Date::getHours"]}
{"id": "C192", "title": "Zones are independent", "statement": "A time zone that was asked for by its name keeps this name when other zones are asked for, and a format keeps the zone it was given.", "quantifier": "every two names", "why_tests_cant": "It depends on which calls come between.", "anchors": ["library/Java/Util/TimeZone/TimeZone.cpp: TimeZone::getTimeZone", "library/Java/Text/SimpleDateFormat/SimpleDateFormat.cpp: SimpleDateFormat::setTimeZone"]}
{"id": "C193", "title": "Elements sent with a producer token come out first in, first out", "statement": "Elements enqueued with one producer token, singly or in bulk, are each handed out at most once; each dequeue call, single or bulk, returns a run of consecutive elements sent before, no more than it asks for, and a call that ended before another began has the earlier elements.", "quantifier": "every history of single and bulk calls, every interleaving with any number of consumers, every failure of memory, every block size", "why_tests_cant": "The order depends on the interleaving of lock-free code, on the state of the ring of blocks and on the point where memory runs out.", "anchors": ["library/Java/Util/Concurrent/ConcurrentLinkedQueue/concurrentqueue.hpp: ExplicitProducer::enqueue, ExplicitProducer::enqueue_bulk, ExplicitProducer::dequeue, ExplicitProducer::dequeue_bulk"]}
{"id": "C194", "title": "Nothing sent with a producer token is lost", "statement": "When no consumer is in the middle of a call, the calls have taken exactly the oldest elements sent with the token, none left out; with one consumer at a time in exactly the order in which they were sent.", "quantifier": "every history, every interleaving, every number of consumers", "why_tests_cant": "An element may be lost in one interleaving out of very many only.", "anchors": ["library/Java/Util/Concurrent/ConcurrentLinkedQueue/concurrentqueue.hpp: ExplicitProducer::enqueue, ExplicitProducer::enqueue_bulk, ExplicitProducer::dequeue_bulk"]}
{"id": "C195", "title": "A lone consumer gets what is there", "statement": "A dequeue call during which nobody else does anything returns the oldest elements still in the queue of the token, as many as it asks for or all of them.", "quantifier": "every reachable state, every number of elements asked for", "why_tests_cant": "The state may result from any history of overlapping calls, which leave their traces in the counters.", "anchors": ["library/Java/Util/Concurrent/ConcurrentLinkedQueue/concurrentqueue.hpp: ExplicitProducer::dequeue, ExplicitProducer::dequeue_bulk"]}
{"id": "C196", "title": "Calls with a producer token never wait", "statement": "Every enqueue and dequeue call ends after a number of its own steps that depends only on the number of elements asked for, whatever the other threads do.", "quantifier": "every schedule, every call, every other thread, stopped ones included", "why_tests_cant": "No test can run all schedules, nor forever.", "anchors": ["library/Java/Util/Concurrent/ConcurrentLinkedQueue/concurrentqueue.hpp: ExplicitProducer::enqueue, ExplicitProducer::enqueue_bulk, ExplicitProducer::dequeue_bulk"]}
{"id": "C197", "title": "Queues with a producer token use memory properly", "statement": "No call reads an element that is not constructed or an index entry that was not written, whatever the interleaving and even if memory runs out.", "quantifier": "every history, every interleaving, every failure of memory", "why_tests_cant": "Undefined behaviour need not show, and it needs a failure at one certain point.", "anchors": ["library/Java/Util/Concurrent/ConcurrentLinkedQueue/concurrentqueue.hpp: ExplicitProducer::new_block_index, ExplicitProducer::enqueue_bulk, ExplicitProducer::dequeue_bulk"]}
{"id": "C198", "title": "Sending with a producer token succeeds", "statement": "As long as memory can be had no enqueue and no enqueue_bulk with a token returns false, and the queue is then first in, first out without exception.", "quantifier": "every history and interleaving without failure of memory", "why_tests_cant": "Success for all sizes and all states of the ring cannot be tried out.", "anchors": ["library/Java/Util/Concurrent/ConcurrentLinkedQueue/concurrentqueue.hpp: ExplicitProducer::enqueue, ExplicitProducer::enqueue_bulk"]}
{"id": "C199", "title": "format keeps the text around the specifications", "statement": "String::format returns a text without conversion specifications unchanged whatever arguments are given, and returns s for the format that results from s by doubling every percent sign.", "quantifier": "every text without NUL, every list of arguments", "why_tests_cant": "Which texts contain a specification is decided by a regular expression over texts of any length.", "anchors": ["library/Java/Lang/String/String.hpp: String::format", "library/Java/Lang/String/String.cpp: String::format"]}
{"id": "C200", "title": "format replaces every specification by what C prints", "statement": "String::format reads the format from the left, keeps the text between the specifications, turns a specification that ends in a percent sign into a percent sign and replaces the others by the text that printf defines for the next argument with these flags, width and precision.", "quantifier": "every format, every list of arguments of the right types, every flag, width and precision", "why_tests_cant": "Formats and arguments are unbounded, and the buffer matters for single lengths only.", "anchors": ["library/Java/Lang/String/String.hpp: String::format, printObject", "library/Java/Lang/String/String.cpp: String::print"]}
{"id": "C201", "title": "format with too few or too many arguments", "statement": "With fewer arguments than the format needs String::format throws IllegalArgumentException as documented and never returns a text; with enough it never throws; surplus arguments change nothing.", "quantifier": "every format, every list of arguments", "why_tests_cant": "The number of arguments a format needs is a property of texts of any length.", "anchors": ["library/Java/Lang/String/String.hpp: String::format", "library/Java/Lang/String/String.cpp: String::format"]}
{"id": "C202", "title": "format prints integers exactly", "statement": "%d gives the decimal text of every int and %ld of every long, %x, %o and %u the numeral of the bits, and %0Nd a text of N characters with the same value, within any surrounding text.", "quantifier": "every int and long, every width, every surrounding text", "why_tests_cant": "2^64 values and all widths; the faults are at the width of the buffer and for longs.", "anchors": ["library/Java/Lang/String/String.cpp: String::print"]}
{"id": "C203", "title": "format inserts texts unchanged", "statement": "%s inserts the text given, whatever characters it contains and however long it is.", "quantifier": "every text, every surrounding text", "why_tests_cant": "Texts are unbounded and a single length is treated differently.", "anchors": ["library/Java/Lang/String/String.cpp: String::print"]}
{"id": "C204", "title": "format prints Booleans", "statement": "%b gives true or false and %B gives TRUE or FALSE, also with a width.", "quantifier": "both values, every specification, every surrounding text", "why_tests_cant": "There are infinitely many specifications.", "anchors": ["library/Java/Lang/String/String.cpp: String::print"]}
{"id": "C205", "title": "destroying a queue destroys each element left in it once", "statement": "When a ConcurrentLinkedQueue is destroyed while no thread is inside a call, the destructor runs without undefined behaviour, and every element ever added has either been returned by exactly one poll or is destroyed by the destructor exactly once, never both; nothing else is destroyed.", "quantifier": "every number of threads, every history of calls and schedule of their steps before, both ways of constructing elements", "why_tests_cant": "Which blocks are half empty when the queue dies depends on the whole concurrent history; a leak or a double destruction shows only for some of them.", "anchors": ["library/Java/Util/Concurrent/ConcurrentLinkedQueue/concurrentqueue.hpp: ~ConcurrentQueue, ~ImplicitProducer, get_block_index_entry_for_index"]}
{"id": "C206", "title": "destroying a queue releases each block once", "statement": "When a ConcurrentLinkedQueue is destroyed while no thread is inside a call, every block of memory it ever took, from its initial pool or by allocation, is released exactly once, and no element is left in any of them.", "quantifier": "every number of threads, every history of calls and schedule of their steps before, every split between initial pool and allocated blocks", "why_tests_cant": "A block may be in an index, in the free list, or just emptied; the last block of a producer is special; histories are unbounded.", "anchors": ["library/Java/Util/Concurrent/ConcurrentLinkedQueue/concurrentqueue.hpp: ~ConcurrentQueue, ~ImplicitProducer, add_block_to_free_list, destroy_array"]}
{"id": "C207", "title": "destroying a queue destroys what its producer token left in it", "statement": "When a queue used through a producer token is destroyed while no thread is inside a call, the elements sent and not taken are destroyed, each exactly once, and no element that a consumer took is destroyed again.", "quantifier": "every number of consumers, every history of single and bulk calls, every schedule of their steps and every failure of memory before, every block size", "why_tests_cant": "The destructor searches the block index for the block that is half empty; whether it finds the right one depends on how often the index went around and on calls that failed half way.", "anchors": ["library/Java/Util/Concurrent/ConcurrentLinkedQueue/concurrentqueue.hpp: ~ExplicitProducer, enqueue_bulk, dequeue_bulk"]}
{"id": "C208", "title": "destroying a queue releases the blocks of its producer token once", "statement": "When a queue used through a producer token is destroyed, every block its producer ever took, from the pool or by allocation, is released exactly once, whatever calls failed before.", "quantifier": "every history of single and bulk calls, every schedule and every failure of memory before", "why_tests_cant": "A bulk call that fails leaves blocks linked that it does not use; whether the walk around the blocks still meets each of them once has to be shown for all histories.", "anchors": ["library/Java/Util/Concurrent/ConcurrentLinkedQueue/concurrentqueue.hpp: ~ExplicitProducer, enqueue_bulk, add_block_to_free_list"]}
{"id": "C209", "title": "a StringBuffer shared by threads behaves as if calls came one after the other", "statement": "StringBuffer is documented as thread-safe. Whatever methods threads call on shared buffers, every call has the result, exception or effect it would have if all calls were made one after the other in some order that respects real time, and undefined behaviour is possible only if it is possible in such an order.", "quantifier": "every number of threads, buffers and calls, every schedule of the accesses to the fields and blocks of the buffers", "why_tests_cant": "The number of interleavings is unbounded; the faulty ones need a thread to be stopped between two particular accesses.", "anchors": ["library/Java/Lang/StringBuffer/StringBuffer.cpp: StringBuffer::append, StringBuffer::insert, StringBuffer::length, StringBuffer::ensureCapacity"]}
{"id": "C210", "title": "threads sharing a StringBuffer do not race", "statement": "Two threads never access the same field or block of a shared StringBuffer at the same time with one of them writing.", "quantifier": "every number of threads, buffers and calls, every schedule", "why_tests_cant": "A data race is a property of all schedules; a test runs few of them, and on most machines a race has no visible effect.", "anchors": ["library/Java/Lang/StringBuffer/StringBuffer.cpp: mutex, StringBuffer::length, StringBuffer::ensureCapacity, StringBuffer::getValue"]}
{"id": "C211", "title": "threads sharing StringBuffers do not deadlock", "statement": "As long as a call is unfinished some thread can make a step: no thread waits for a mutex that is never released, also after an exception and when one buffer is given to a method of another or of itself.", "quantifier": "every number of threads, buffers and calls, every schedule", "why_tests_cant": "A deadlock needs two threads to be stopped at particular points.", "anchors": ["library/Java/Lang/StringBuffer/StringBuffer.cpp: mutex, StringBuffer::append, StringBuffer::insert"]}
{"id": "C212", "title": "no text appended to a StringBuffer by several threads is lost", "statement": "When threads append texts to one new StringBuffer and all have finished, the buffer holds exactly these texts, one after the other, those of each thread in its order; nothing undefined happens on the way, and if no thread can go on then all have finished.", "quantifier": "every number of threads, every list of texts for each with fewer than 2^30 characters in all, every initial capacity, every schedule", "why_tests_cant": "Lost or interleaved text needs particular schedules and growth of the block at particular moments.", "anchors": ["library/Java/Lang/StringBuffer/StringBuffer.cpp: StringBuffer::append, StringBuffer::ensureCapacity"]}
{"id": "C213", "title": "Time-based UUIDs of a machine are distinct", "statement": "No two calls of UUID.timeUUID on one machine return equal UUIDs, whichever processes and threads call, and wherever a process is killed.", "quantifier": "every number of processes and threads, every interleaving of their steps, every point at which a process is killed, every sequence of clock readings", "why_tests_cant": "Needs two processes or threads within one microsecond, or a kill between two writes; schedules cannot be enumerated.", "anchors": ["library/Java/Util/UUID/libuuid/gen_uuid.c: get_clock, __uuid_generate_time", "library/Java/Util/UUID/UUID.cpp: timeUUID"]}
{"id": "C214", "title": "A killed or waiting process does not block time-based UUIDs", "statement": "When a call of UUID.timeUUID waits for the lock of the clock file, the process that holds the lock is alive and has a call that can go on; a call that does not wait can always go on.", "quantifier": "every number of processes and threads, every interleaving, every failure of system calls, every kill", "why_tests_cant": "Deadlocks show only in particular interleavings and kills.", "anchors": ["library/Java/Util/UUID/libuuid/gen_uuid.c: get_clock, __uuid_generate_time", "library/Java/Util/UUID/UUID.cpp: timeUUID"]}
{"id": "C215", "title": "Calls for time-based UUIDs end", "statement": "A call of UUID.timeUUID ends after a bounded number of its own steps.", "quantifier": "every interleaving of processes, every sequence of clock readings", "why_tests_cant": "An endless loop needs a clock that stands still after a burst of calls; a test cannot run forever.", "anchors": ["library/Java/Util/UUID/libuuid/gen_uuid.c: get_clock, __uuid_generate_time", "library/Java/Util/UUID/UUID.cpp: timeUUID"]}
{"id": "C216", "title": "Timestamps of time-based UUIDs follow the order of the calls", "statement": "While the system clock is not set back, a call of UUID.timeUUID that begins after another call returned, in whatever process, returns a UUID with a later timestamp.", "quantifier": "every history of calls of many processes with kills, every clock that is not set back", "why_tests_cant": "All histories of several processes within one microsecond.", "anchors": ["library/Java/Util/UUID/libuuid/gen_uuid.c: get_clock, __uuid_generate_time", "library/Java/Util/UUID/UUID.cpp: timeUUID"]}
{"id": "C217", "title": "Case conversion converts every character", "statement": "String.toUpperCase and toLowerCase return the text whose characters are those of the text, in order, each converted to the other case; nothing is lost, whatever the lengths of the characters in UTF-8.", "quantifier": "every text, every table of upper and lower case letters of the locale", "why_tests_cant": "All texts over more than a million characters, of which some change their length.", "anchors": ["library/Java/Lang/String/String.cpp: multiByteStringToWideString, wideStringToMultiByteString, toUpper, toLower, String::toLowerCase, String::toUpperCase"]}
{"id": "C218", "title": "Converting the case twice is converting it once", "statement": "Applying String.toUpperCase (or toLowerCase) to its own result gives the same text.", "quantifier": "every string of bytes, also those that are not UTF-8 or hold NUL", "why_tests_cant": "All byte strings, with every way of not being well-formed.", "anchors": ["library/Java/Lang/String/String.cpp: multiByteStringToWideString, wideStringToMultiByteString, toUpper, toLower, String::toLowerCase, String::toUpperCase"]}
{"id": "C219", "title": "Words and encoding names are compared without regard to case and to nothing else", "statement": "Boolean.parseBoolean(text) is true exactly for the spellings of \"true\" in any mix of cases; URLEncoder and URLDecoder take exactly the spellings of \"UTF-8\" in any mix of cases and throw UnsupportedEncodingException for every other name.", "quantifier": "every text, every table of upper and lower case letters that has the letters of these words", "why_tests_cant": "All texts, also those with characters outside ASCII.", "anchors": ["library/Java/Lang/String/String.cpp: multiByteStringToWideString, wideStringToMultiByteString, toUpper, toLower, String::toLowerCase, String::toUpperCase", "library/Java/Lang/Boolean/Boolean.cpp: Boolean::parseBoolean, Boolean::getBoolean", "library/Java/Net/URLEncoder/URLEncoder.cpp: URLEncoder::encode", "library/Java/Net/URLDecoder/URLDecoder.cpp: URLDecoder::decode"]}
{"id": "C220", "title": "Calls on the pool of free blocks end", "statement": "Giving a block to the pool and taking one end after a bounded number of steps of the calling thread; in any case the threads that use the pool do not keep one another from ending: whenever they have made enough steps together, one of their calls has ended.", "quantifier": "every number of threads, every history of the pool and every schedule, also those in which threads stop for ever", "why_tests_cant": "A bound on the steps of all schedules cannot be observed in a test; starving schedules hardly ever happen by chance.", "anchors": ["library/Java/Util/Concurrent/ConcurrentLinkedQueue/concurrentqueue.hpp: FreeList::add, FreeList::try_get, FreeList::add_knowing_refcount_is_zero"]}
{"id": "C221", "title": "What was written before adding an element is seen by whoever takes it", "statement": "A thread that takes an element from the queue gets the value that was added, and all it reads afterwards is at least as new as what the adding thread knew when it called add: as Java's memory consistency rule for concurrent collections says, actions before placing an object happen before actions after its removal.", "quantifier": "every number of threads, every execution that the memory model of C++11 allows for the memory orders in the code, every location and every later read", "why_tests_cant": "Stale reads depend on compiler and processor; x86 machines, where tests run, never show most of the executions the memory orders allow.", "anchors": ["library/Java/Util/Concurrent/ConcurrentLinkedQueue/concurrentqueue.hpp: ImplicitProducer::enqueue, ImplicitProducer::dequeue, ExplicitProducer::enqueue, ExplicitProducer::dequeue", "library/Java/Util/Concurrent/ConcurrentLinkedQueue/ConcurrentLinkedQueue.hpp: add, poll"]}
{"id": "C222", "title": "Elements are taken once and in order also on weak memory", "statement": "Under the memory model of C++11 no element that one thread added is taken twice, and when no call is under way the elements that were taken are the first that were added.", "quantifier": "every number of threads and every execution that the memory model of C++11 allows", "why_tests_cant": "Reorderings allowed by relaxed atomics cannot be enumerated by tests and mostly do not occur on the machine that runs them.", "anchors": ["library/Java/Util/Concurrent/ConcurrentLinkedQueue/concurrentqueue.hpp: ImplicitProducer::enqueue, ImplicitProducer::dequeue"]}
{"id": "C223", "title": "The places of elements are used without data races", "statement": "No two threads use the place of an element in the queue at the same time without one use happening before the other, so that moving an element in and out has defined behaviour.", "quantifier": "every number of threads and every execution that the memory model of C++11 allows", "why_tests_cant": "A data race is undefined behaviour even if every test run gives the right value; race detectors judge only the executions they see.", "anchors": ["library/Java/Util/Concurrent/ConcurrentLinkedQueue/concurrentqueue.hpp: ImplicitProducer::enqueue, ImplicitProducer::dequeue"]}
{"id": "C224", "title": "A poll without others at work finds an element that was added before", "statement": "A thread that polls the queue while no other call is under way takes an element, if there is one whose adding happened before the poll.", "quantifier": "every history of adds and polls by every number of threads, every execution that the memory model of C++11 allows", "why_tests_cant": "The failing execution needs a stale read of a counter after two threads competed for the last element.", "anchors": ["library/Java/Util/Concurrent/ConcurrentLinkedQueue/concurrentqueue.hpp: ImplicitProducer::dequeue, ConcurrentQueue::try_dequeue"]}
{"id": "C225", "title": "A place of the queue is used again only after its former use", "statement": "When the queue puts a new element where an old one was, the taking of the old element happened before, so that the two do not race.", "quantifier": "every number of threads, every history of adds and polls, every execution that the memory model of C++11 allows", "why_tests_cant": "The race needs two threads that take elements of one block to count them in a certain order between the fences of a third call; the values that tests compare come out right on the machines that run them.", "anchors": ["library/Java/Util/Concurrent/ConcurrentLinkedQueue/concurrentqueue.hpp: Block::set_empty, FreeList::add, FreeList::try_get, ImplicitProducer::dequeue, ImplicitProducer::enqueue"]}
{"id": "C226", "title": "Elements of any number of adding threads pass between threads with all that was written before", "statement": "Any number of threads add to and poll one queue. Whoever polls an element sees all writes that its adding thread had seen when it called add; no element is polled twice; when no call is under way the elements of each thread that were polled are the first it added; and no two accesses to the place of an element race. This holds as long as the queue puts no element where another one was (C225 is about that).", "quantifier": "every number of threads, every one of which may add and poll, every history of adds and polls and of other atomic operations of the program, every execution that the memory model of C++11 allows", "why_tests_cant": "A reordering that the memory model allows but the machine that runs the tests does not make is not seen by any test.", "anchors": ["library/Java/Util/Concurrent/ConcurrentLinkedQueue/ConcurrentLinkedQueue.hpp: add, poll", "library/Java/Util/Concurrent/ConcurrentLinkedQueue/concurrentqueue.hpp: inner_enqueue, try_dequeue, ImplicitProducer::enqueue, ImplicitProducer::dequeue, size_approx"]}
{"id": "C227", "title": "Calls on a concurrent map from several threads do not race", "statement": "Any number of threads call put, get, remove, containsKey, clear, forEach, size and isEmpty on one map. No two accesses to what the map keeps in plain memory (buckets, counters, flags, the pointer to the buckets), one of them a write, are unordered in the sense of the C++11 memory model.", "quantifier": "every number of threads, every choice of buckets and locks of their calls, every schedule and every choice of the writes that atomic loads read", "why_tests_cant": "A data race is no observable event; whether it does harm depends on compiler and processor.", "anchors": ["library/Java/Util/Concurrent/ConcurrentHashMap/ConcurrentHashMap.hpp: put, get, remove, containsKey, clear, size, isEmpty", "library/Java/Util/Concurrent/ConcurrentHashMap/libcuckoo/cuckoohash_map.hh: spinlock, lock_one, lock_two, lock_three, lock_all, check_hashpower, size, elem_counter"]}
{"id": "C228", "title": "Who works on a bucket of a concurrent map is alone, sees the present table and all that was done before", "statement": "No two calls work with the same lock at once. A call works on the table with the hash power that the table has, even if another call grows the table between its reading the hash power and its getting the lock. A call that works with a lock sees everything that those saw who gave that lock back before, also in the rest of the program: a thread that gets a value sees what the thread that put it had written, and may change it without a race.", "quantifier": "every number of threads and locks, every schedule of calls other than size and isEmpty (which race, C227), every choice of the writes that atomic loads read, under the C++11 memory model", "why_tests_cant": "Stale reads depend on processor and compiler and cannot be provoked by tests.", "anchors": ["library/Java/Util/Concurrent/ConcurrentHashMap/ConcurrentHashMap.hpp: put, get, remove", "library/Java/Util/Concurrent/ConcurrentHashMap/libcuckoo/cuckoohash_map.hh: spinlock, lock_one, lock_two, lock_three, lock_all, check_hashpower, snapshot_and_lock_two", "library/Java/Util/Concurrent/ConcurrentHashMap/libcuckoo/bucket_container.hh: hashpower"]}
{"id": "C229", "title": "Math.IEEERemainder is the remainder of IEEE 754", "statement": "For finite x and y, y not zero, IEEERemainder(x, y) is x - n * y exactly, where n is the whole number nearest to the exact quotient x / y, the even one of two, and a zero has the sign of x. It is x if only y is infinite, and NaN if x is infinite, y is zero or one of them is NaN.", "quantifier": "every pair of double values", "why_tests_cant": "2^128 pairs; that every one is exact is a statement about rounding.", "anchors": ["library/Java/Lang/Math/Math.cpp: math_ieeeremainder, IEEERemainder"]}
{"id": "C230", "title": "What was done before a permit was put in is known to the one that takes it", "statement": "Every permit that a call of wait, tryWait, waitMany or tryWaitMany takes is one that was put in, each taken once, and the thread that takes it sees all that the thread that put it in had done or seen before: it reads no older value of any variable, and may change without a race what nobody has changed since. Calls return with exactly the permits taken.", "quantifier": "every schedule of any number of threads and every order of memory that C++11 allows for the memory orders in the code", "why_tests_cant": "An acquire or release that is missing shows only on some machines, and then rarely.", "anchors": ["library/Java/Util/Concurrent/LinkedBlockingQueue/lightweightsemaphore.hpp: LightweightSemaphore, waitWithPartialSpinning, waitManyWithPartialSpinning, tryWait, tryWaitMany, signal"]}
{"id": "C231", "title": "The random bytes of UUIDs are as good as the device they come from", "statement": "Each byte that a random UUID is made of is a byte of the random device of the system, changed by a number that does not depend on the device. So different bytes of the device give different results, every result is possible, and what was in memory before does not matter. A device that gives its bytes in pieces or fails now and then changes nothing. The call ends after a bounded number of calls to the system and writes nothing but the bytes asked for. Calls at different times give different bytes.", "quantifier": "every number of bytes, every behaviour of the devices, every process and time", "why_tests_cant": "Tests find a device that works; short reads, errors and processes with large numbers do not turn up.", "anchors": ["library/Java/Util/UUID/libuuid/randutils.c: random_get_fd, random_get_bytes"]}
