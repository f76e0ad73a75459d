{
 "claims": [
  {
   "property": "C01",
   "status": "proved",
   "theorems": [
    "Verif.Base64.C01_base64_round_trip"
   ],
   "note": "Both alphabets, padded and unpadded, every input whose encoding fits an array."
  },
  {
   "property": "C02",
   "status": "proved",
   "theorems": [
    "Verif.Base64.C02_base64_is_rfc4648",
    "Verif.Base64.C02_base64_length",
    "Verif.Base64.C02_without_padding",
    "Verif.Base64.C02_strict_is_undefined"
   ],
   "note": "Proved for the evaluation order mainstream compilers emit; under ISO C++ the unsequenced increments are undefined (C02_strict_is_undefined)."
  },
  {
   "property": "C03",
   "status": "partial",
   "theorems": [
    "Verif.Base64.C03_decode_exact",
    "Verif.Base64.C03_decode_safe_partial",
    "Verif.Base64.C03_decode_safe_short",
    "Verif.Base64.C03_illegal_rejected",
    "Verif.Base64.C03_decode_unsafe"
   ],
   "note": "The full claim is false: C03_decode_unsafe is a counterexample. Proved: exact acceptance, and that the literal overread (input longer than 46 bytes with = before the end) is the only unsafe case."
  },
  {
   "property": "C04",
   "status": "partial",
   "theorems": [
    "Verif.Base64.C04_mime_layout",
    "Verif.Base64.C04_getMimeEncoder",
    "Verif.Base64.C04_bad_separator",
    "Verif.Base64.C04_lines",
    "Verif.Base64.C04_small_line_fails",
    "Verif.Base64.C04_mime_decoder_fails"
   ],
   "note": "Layout proved; the round trip is false: the MIME decoder fails on every encoding of 1 to 30 bytes (C04_mime_decoder_fails), and line lengths 0..3 break the encoder."
  },
  {
   "property": "C05",
   "status": "partial",
   "theorems": [
    "Verif.UrlCodec.C05_url_round_trip_partial",
    "Verif.UrlCodec.C05_url_round_trip_cstr",
    "Verif.UrlCodec.C05_nul_truncates",
    "Verif.UrlCodec.C05_encoding_name"
   ],
   "note": "Round trip proved for every string without NUL bytes; with a NUL the text is cut at the first one (C05_url_round_trip_cstr gives the exact result, C05_nul_truncates a counterexample to the full claim)."
  },
  {
   "property": "C06",
   "status": "proved",
   "theorems": [
    "Verif.UrlCodec.C06_url_safe_output",
    "Verif.UrlCodec.C06_url_encode_total",
    "Verif.UrlCodec.C06_url_injective"
   ],
   "note": "Injectivity is on NUL-free texts; see C05 for NUL."
  },
  {
   "property": "C07",
   "status": "proved",
   "theorems": [
    "Verif.UrlCodec.C07_url_decode_safe",
    "Verif.UrlCodec.C07_strict_malformed_undefined",
    "Verif.UrlCodec.C07_malformed_accepted"
   ],
   "note": "Memory safety proved for every input in wrap-around arithmetic; under ISO C++ a negative shift on malformed input is undefined (C07_strict_malformed_undefined)."
  },
  {
   "property": "C08",
   "status": "proved",
   "theorems": [
    "Verif.MathOps.C08_addExact",
    "Verif.MathOps.C08_subtractExact",
    "Verif.MathOps.C08_negateExact",
    "Verif.MathOps.C08_incrementExact",
    "Verif.MathOps.C08_decrementExact",
    "Verif.MathOps.C08_strict_overflow_undefined"
   ],
   "note": "Any width, so int and long. add/subtract are proved for wrap-around arithmetic; under ISO C++ they overflow before checking (C08_strict_overflow_undefined)."
  },
  {
   "property": "C09",
   "status": "partial",
   "theorems": [
    "Verif.MathOps.C09_multiplyExact_int_partial",
    "Verif.MathOps.C09_multiplyExact_wrong",
    "Verif.MathOps.C09_multiplyExact_long_partial",
    "Verif.MathOps.C09_multiplyExact_long_wrong",
    "Verif.MathOps.C09_toIntExact_partial",
    "Verif.MathOps.C09_toIntExact_wrong"
   ],
   "note": "The full claim is false (witnesses given); the theorems give the result for every input."
  },
  {
   "property": "C10",
   "status": "partial",
   "theorems": [
    "Verif.MathOps.C10_floorDiv",
    "Verif.MathOps.C10_floorMod",
    "Verif.MathOps.C10_undefined_cases"
   ],
   "note": "Exact floor division for all inputs except MIN_VALUE/-1, which traps instead of returning (proved for every width)."
  },
  {
   "property": "C11",
   "status": "partial",
   "theorems": [
    "Verif.NumText.C11_roundtrip",
    "Verif.NumText.C11_roundtrip_unsigned",
    "Verif.NumText.C11_toString",
    "Verif.NumText.C11_toUnsignedString",
    "Verif.NumText.C11_toString_strict",
    "Verif.NumText.C11_toUnsignedString_radix"
   ],
   "note": "Both round trips hold for every int on a two's complement machine; under ISO C++ the smallest int alone overflows in toString (C11_toString_strict)."
  },
  {
   "property": "C12",
   "status": "partial",
   "theorems": [
    "Verif.NumText.C12_parseInt_partial",
    "Verif.NumText.C12_no_digit",
    "Verif.NumText.C12_trailing_text_wrong",
    "Verif.NumText.C12_parseInt_wrong"
   ],
   "note": "Well-formed texts are handled exactly (outside one band of magnitudes just below 2^64) and texts without digits are rejected; trailing text, leading blanks, doubled signs and magnitudes near 2^64 are accepted (the _wrong theorems)."
  },
  {
   "property": "C13",
   "status": "partial",
   "theorems": [
    "Verif.Bits.C13_highestOneBit",
    "Verif.Bits.C13_lowestOneBit",
    "Verif.Bits.C13_numberOfLeadingZeros",
    "Verif.Bits.C13_reverse",
    "Verif.Bits.C13_reverseBytes",
    "Verif.Bits.C13_rotateLeft",
    "Verif.Bits.C13_rotateRight",
    "Verif.Bits.C13_signum",
    "Verif.Bits.C13_strict_undefined",
    "Verif.NumText.C13_bitCount",
    "Verif.NumText.C13_numberOfTrailingZeros"
   ],
   "note": "Each operation is exact for every int on a two's complement machine (wrap semantics; highestOneBit and numberOfLeadingZeros also under ISO rules); under ISO C++ the negative shifts in the rotations are undefined (C13_strict_undefined)."
  },
  {
   "property": "C14",
   "status": "partial",
   "theorems": [
    "Verif.Bits.C14_compareUnsigned",
    "Verif.Bits.C14_compareUnsigned_strict",
    "Verif.Bits.C14_divideUnsigned"
   ],
   "note": "Exact for every pair on a wrapping machine; divide and remainder need no such assumption. Under ISO C++ compareUnsigned of a negative int overflows (C14_compareUnsigned_strict)."
  },
  {
   "property": "C15",
   "status": "partial",
   "theorems": [
    "Verif.Bits.C15_bitCount",
    "Verif.Bits.C15_bitCount_strict",
    "Verif.Bits.C15_lowestOneBit",
    "Verif.Bits.C15_highestOneBit_partial",
    "Verif.Bits.C15_highestOneBit_negative",
    "Verif.Bits.C15_numberOfLeadingZeros",
    "Verif.Bits.C15_numberOfTrailingZeros",
    "Verif.Bits.C15_rotate_partial",
    "Verif.Bits.C15_rotate_wrong",
    "Verif.Bits.C15_reverse_wrong",
    "Verif.Bits.C15_signum_partial",
    "Verif.Bits.C15_signum_wrong"
   ],
   "note": "bitCount, lowestOneBit, numberOfLeadingZeros and numberOfTrailingZeros are exact for every long; highestOneBit and the rotations only for non-negative values, signum only for non-positive ones, reverse and reverseBytes are identity stubs (all refuted by the _wrong and _negative theorems)."
  },
  {
   "property": "C16",
   "status": "partial",
   "theorems": [
    "Verif.NumText.C16_parseLong",
    "Verif.NumText.C16_parseLong_other_radix",
    "Verif.NumText.C16_parseLong_radix_zero",
    "Verif.NumText.C16_decimal_roundtrip",
    "Verif.NumText.C16_hex_roundtrip",
    "Verif.NumText.C16_decode_hex",
    "Verif.NumText.C16_decode_decimal",
    "Verif.NumText.C16_static_toString_wrong",
    "Verif.NumText.C16_decode_wrong"
   ],
   "note": "Both round trips are proved for every long through the object text; the static Long.toString(long) returns the text of its first argument ever (C16_static_toString_wrong), and octal literals are not decoded."
  },
  {
   "property": "C17",
   "status": "partial",
   "theorems": [
    "Verif.BitSet.C17_history",
    "Verif.BitSet.C17_history_new",
    "Verif.BitSet.C17_step",
    "Verif.BitSet.C17_get_negative",
    "Verif.BitSet.C17_newSize",
    "Verif.BitSet.C17_all_histories",
    "Verif.BitSet.C17_strict_undefined",
    "Verif.BitSet.C17_strict_low"
   ],
   "note": "Proved for every history on x86-64 (shift counts modulo 64); ISO C++ leaves the shift undefined for indices from 64 on (C17_strict_undefined), below 64 both readings agree. C17_all_histories extends the claim to nested histories of all operations."
  },
  {
   "property": "C18",
   "status": "partial",
   "theorems": [
    "Verif.BitSet.C18_setRange",
    "Verif.BitSet.C18_setRangeTo",
    "Verif.BitSet.C18_clearRange",
    "Verif.BitSet.C18_flipRange_exact",
    "Verif.BitSet.C18_flipRange_partial",
    "Verif.BitSet.C18_flipRange_wrong",
    "Verif.BitSet.C18_getRange_partial",
    "Verif.BitSet.C18_getRange_undefined",
    "Verif.BitSet.C18_invalid",
    "Verif.BitSet.C18_strict_undefined"
   ],
   "note": "flip(from,to) toggles 64 more indices when to is a multiple of 64 (C18_flipRange_wrong, for every such call); get(from,to) overflows if INT_MAX is a member."
  },
  {
   "property": "C19",
   "status": "partial",
   "theorems": [
    "Verif.BitSet.C19_and",
    "Verif.BitSet.C19_or",
    "Verif.BitSet.C19_xor",
    "Verif.BitSet.C19_andNot",
    "Verif.BitSet.C19_intersects_exact",
    "Verif.BitSet.C19_intersects_partial",
    "Verif.BitSet.C19_intersects_wrong"
   ],
   "note": "The four operations are exact; intersects throws for disjoint sets without a spare word (C19_intersects_wrong)."
  },
  {
   "property": "C20",
   "status": "partial",
   "theorems": [
    "Verif.BitSet.C20_length_partial",
    "Verif.BitSet.C20_isEmpty",
    "Verif.BitSet.C20_cardinality",
    "Verif.BitSet.C20_nextSetBit",
    "Verif.BitSet.C20_nextClearBit",
    "Verif.BitSet.C20_previousSetBit_partial",
    "Verif.BitSet.C20_previousClearBit_partial",
    "Verif.BitSet.C20_negative",
    "Verif.BitSet.C20_previousSetBit_undefined",
    "Verif.BitSet.C18_getRange_undefined"
   ],
   "note": "Exact, except that length and the previous* searches overflow for members or arguments in the last word below 2^31."
  },
  {
   "property": "C21",
   "status": "proved",
   "theorems": [
    "Verif.BitSet.C21_roundtrip",
    "Verif.BitSet.C21_equals",
    "Verif.BitSet.C21_valueOf_longs",
    "Verif.BitSet.C21_valueOf_bytes",
    "Verif.BitSet.C21_toLongArray",
    "Verif.BitSet.C21_toByteArray",
    "Verif.BitSet.C21_clone"
   ],
   "note": "Members ranges over all reachable objects by C17_all_histories."
  },
  {
   "property": "C22",
   "status": "partial",
   "theorems": [
    "Verif.Arrays.C22_sort_partial",
    "Verif.Arrays.C22_sort_safe_partial",
    "Verif.Arrays.C22_sort_range",
    "Verif.Arrays.C22_overflow"
   ],
   "note": "Proved for every array of at most 2^30 elements and every strict weak order (safety even for arbitrary irreflexive comparisons). Beyond that the midpoint overflows, proved undefined."
  },
  {
   "property": "C23",
   "status": "partial",
   "theorems": [
    "Verif.Arrays.C23_sound",
    "Verif.Arrays.C23_absent",
    "Verif.Arrays.C23_found_partial",
    "Verif.Arrays.C23_wrong",
    "Verif.Arrays.C23_from_ignored_wrong",
    "Verif.Arrays.C23_overflow"
   ],
   "note": "Soundness holds for all arrays; completeness holds exactly for range sizes 2^k, k>=2, and is refuted for every other size."
  },
  {
   "property": "C24",
   "status": "partial",
   "theorems": [
    "Verif.Arrays.C24_copyOf",
    "Verif.Arrays.C24_copyOfRange_partial",
    "Verif.Arrays.C24_copyOfRange_wrong",
    "Verif.Arrays.C24_fill",
    "Verif.Arrays.C24_fillByIndex",
    "Verif.Arrays.C24_fillByIndex_exclusive_wrong",
    "Verif.Arrays.C24_equals",
    "Verif.Arrays.C24_hashCode",
    "Verif.Arrays.C24_equal_hash",
    "Verif.Arrays.C24_hash_overflow"
   ],
   "note": "copyOf, fill, equals, hashCode proved; copyOfRange proved except for ranges reaching the end, where it is refuted; fillByIndex includes its end."
  },
  {
   "property": "C25",
   "status": "partial",
   "theorems": [
    "Verif.ArrayList.C25_call",
    "Verif.ArrayList.C25_history_partial",
    "Verif.ArrayList.C25_search",
    "Verif.ArrayList.C25_add_at_size_wrong",
    "Verif.ArrayList.C25_add_outside_wrong",
    "Verif.ArrayList.C25_add_empty_wrong",
    "Verif.ArrayList.C25_removeRange_wrong",
    "Verif.ArrayList.C25_capacity_wrong",
    "Verif.ArrayList.C25_ofList",
    "Verif.ArrayList.C25_toString"
   ],
   "note": "Every history of legal calls refines an abstract sequence; insertion at the end position, out-of-range insertion and removeRange deviate, each refuted."
  },
  {
   "property": "C26",
   "status": "partial",
   "theorems": [
    "Verif.Vector.C26_call",
    "Verif.Vector.C26_history_partial",
    "Verif.Vector.C26_new",
    "Verif.Vector.C26_addAll_wrong",
    "Verif.Vector.C26_addAll_empty_wrong",
    "Verif.Vector.C26_lastIndexOf_empty_wrong",
    "Verif.Vector.C26_removeRange_empty_wrong",
    "Verif.Vector.C26_removeRange_end_wrong",
    "Verif.Vector.C26_removeAll_iso_wrong",
    "Verif.Vector.C26_removeObj_wrong",
    "Verif.Vector.C26_add_own_wrong",
    "Verif.Vector.C26_add_own_room",
    "Verif.Vector.C26_equals",
    "Verif.Vector.C26_clone",
    "Verif.Vector.C26_copy",
    "Verif.Vector.C26_garbage_increment_wrong",
    "Verif.Vector.C26_assign",
    "Verif.Vector.C26_self_assign_wrong"
   ],
   "note": "Every history of legal calls refines an abstract sequence; the calls that deviate are each refuted."
  },
  {
   "property": "C27",
   "status": "partial",
   "theorems": [
    "Verif.Stack.C27_call",
    "Verif.Stack.C27_lifo",
    "Verif.Stack.C27_search_absent_partial",
    "Verif.Stack.C27_search_wrong",
    "Verif.Stack.C27_search_empty_wrong"
   ],
   "note": "push, pop, peek and empty are LIFO for every history; search counts from the bottom, and raises on an empty stack."
  },
  {
   "property": "C28",
   "status": "partial",
   "theorems": [
    "Verif.LinkedList.C28_call",
    "Verif.LinkedList.C28_history_partial",
    "Verif.LinkedList.C28_no_leak",
    "Verif.LinkedList.C28_removeNode",
    "Verif.LinkedList.C28_empty_wrong",
    "Verif.LinkedList.C28_removeAt_wrong",
    "Verif.LinkedList.C28_element_wrong",
    "Verif.LinkedList.C28_copy_wrong"
   ],
   "note": "Every history of legal calls refines a deque and leaks nothing; accessors of an empty list, removal of a missing position, element() and copies deviate, each refuted."
  },
  {
   "property": "C29",
   "status": "partial",
   "theorems": [
    "Verif.PriorityQueue.C29_offer",
    "Verif.PriorityQueue.C29_poll",
    "Verif.PriorityQueue.C29_history_partial",
    "Verif.PriorityQueue.C29_ofList",
    "Verif.PriorityQueue.C29_drain",
    "Verif.PriorityQueue.C29_remove_partial",
    "Verif.PriorityQueue.C29_remove_wrong",
    "Verif.PriorityQueue.C29_poll_empty_wrong",
    "Verif.PriorityQueue.C29_peek_empty",
    "Verif.PriorityQueue.C29_capacity_wrong"
   ],
   "note": "Proved for every history without remove, over every strict weak order, with make_heap and pop_heap modelled as in libstdc++; remove breaks the heap (refuted for every three ordered elements)."
  },
  {
   "property": "C30",
   "status": "partial",
   "theorems": [
    "Verif.HashMap.C30_call",
    "Verif.HashMap.C30_history_partial",
    "Verif.HashMap.C30_history_from_partial",
    "Verif.HashMap.C30_put_wrong",
    "Verif.HashMap.C30_primitive_wrong",
    "Verif.HashMap.C30_copy",
    "Verif.HashMap.C30_ofPairs",
    "Verif.HashMap.C30_toString"
   ],
   "note": "Every history of legal calls is one of a finite map, for every iteration order; put never overwrites (refuted for every bound key)."
  },
  {
   "property": "C31",
   "status": "partial",
   "theorems": [
    "Verif.HashMap.C31_equals_exact",
    "Verif.HashMap.C31_equals_partial",
    "Verif.HashMap.C31_equals_wrong",
    "Verif.HashMap.C31_primitive_wrong"
   ],
   "note": "Exact behaviour characterised; correct when no value is the default value."
  },
  {
   "property": "C32",
   "status": "partial",
   "theorems": [
    "Verif.JString.C32_indexOf_partial",
    "Verif.JString.C32_indexOf_empty_wrong",
    "Verif.JString.C32_indexOfFrom_partial",
    "Verif.JString.C32_contains",
    "Verif.JString.C32_containsSeq_partial",
    "Verif.JString.C32_containsSeq_wrong",
    "Verif.JString.C32_startsWith",
    "Verif.JString.C32_startsWithAt",
    "Verif.JString.C32_endsWith",
    "Verif.JString.C32_lastIndexOf",
    "Verif.JString.C32_lastIndexOfFrom_partial",
    "Verif.JString.C32_lastIndexOfFrom_wrong",
    "Verif.JString.C32_indexOfChar_partial",
    "Verif.JString.C32_indexOfChar_nul_wrong",
    "Verif.JString.C32_indexOfCharFrom",
    "Verif.JString.C32_lastIndexOfChar",
    "Verif.JString.C32_lastIndexOfCharFrom_partial",
    "Verif.JString.C32_lastIndexOfCharFrom_wrong",
    "Verif.JString.C32_regionMatches_partial",
    "Verif.JString.C32_regionMatches_wrong"
   ],
   "note": "Exact for contains, startsWith, endsWith, lastIndexOf, lastIndexOf(char). The full claim is false for the cases each _wrong theorem witnesses; each _partial theorem covers the remaining inputs."
  },
  {
   "property": "C33",
   "status": "partial",
   "theorems": [
    "Verif.JString.C33_split_join_partial",
    "Verif.JString.C33_pieces_unique",
    "Verif.JString.C33_split_empty_diverges"
   ],
   "note": "Every string and every non-empty delimiter; with the empty delimiter the loop never ends (C33_split_empty_diverges)."
  },
  {
   "property": "C34",
   "status": "partial",
   "theorems": [
    "Verif.JString.C34_replace_partial",
    "Verif.JString.C34_replaced_unique",
    "Verif.JString.C34_replace_empty_diverges",
    "Verif.JString.C34_replaceChar"
   ],
   "note": "Every non-empty pattern; with the empty pattern the loop never ends (C34_replace_empty_diverges)."
  },
  {
   "property": "C35",
   "status": "partial",
   "theorems": [
    "Verif.JString.C35_equals",
    "Verif.JString.C35_compareTo_partial",
    "Verif.JString.C35_compareTo_preorder",
    "Verif.JString.C35_compareTo_not_consistent",
    "Verif.JString.C35_equalsIgnoreCase_partial"
   ],
   "note": "A total order consistent with equals on NUL-free strings; only a preorder that ignores text after a NUL in general (C35_compareTo_not_consistent)."
  },
  {
   "property": "C36",
   "status": "partial",
   "theorems": [
    "Verif.JString.C36_hash_partial",
    "Verif.JString.C36_equal_hash",
    "Verif.JString.C36_stale_cache",
    "Verif.JString.C36_strict_overflow"
   ],
   "note": "Proved for strings not hashed before their last mutation; the cached hash goes stale otherwise (C36_stale_cache)."
  },
  {
   "property": "C37",
   "status": "partial",
   "theorems": [
    "Verif.JString.C37_subString_partial",
    "Verif.JString.C37_subString_invalid",
    "Verif.JString.C37_charAt_partial",
    "Verif.JString.C37_charAt_empty",
    "Verif.JString.C37_trim",
    "Verif.JString.C37_case_partial",
    "Verif.JString.C37_concat",
    "Verif.JString.C37_ofSlice"
   ],
   "note": "Valid slices are exact; invalid ones return the empty string where the claim asks for an exception, and charAt on the empty string is unchecked."
  },
  {
   "property": "C38",
   "status": "partial",
   "theorems": [
    "Verif.StringBuilder.C38_call",
    "Verif.StringBuilder.C38_history_partial",
    "Verif.StringBuilder.C38_ofText",
    "Verif.StringBuilder.C38_copy",
    "Verif.StringBuilder.C38_negative_capacity",
    "Verif.StringBuilder.C38_text_wrong",
    "Verif.StringBuilder.C38_growth_wrong"
   ],
   "note": "Every history below 2^30 characters refines the abstract text, memory-safely and with the right exceptions; beyond that the doubling of the capacity overflows (refuted for every such append); toString cuts at a NUL."
  },
  {
   "property": "C39",
   "status": "partial",
   "theorems": [
    "Verif.StringBuilder.C39_indexOf_safe",
    "Verif.StringBuilder.C39_indexOf_partial",
    "Verif.StringBuilder.C39_indexOf_short",
    "Verif.StringBuilder.C39_indexOf_empty",
    "Verif.StringBuilder.C39_indexOf_zero",
    "Verif.StringBuilder.C39_indexOf_misses",
    "Verif.StringBuilder.C39_indexOf_invents",
    "Verif.StringBuilder.C39_lastIndexOf_partial",
    "Verif.StringBuilder.C39_lastIndexOf_safe",
    "Verif.StringBuilder.C39_lastIndexOf_misses",
    "Verif.StringBuilder.C39_lastIndexOf_from_ignored",
    "Verif.StringBuilder.C39_lastIndexOf_from_wrong",
    "Verif.StringBuilder.C39_lastIndexOf_unsafe"
   ],
   "note": "Exact for patterns (and texts) without repeated inner first characters, in particular all patterns of one or two characters; refuted otherwise, both by missed and by invented matches; the start of lastIndexOf is ignored or read out of bounds."
  },
  {
   "property": "C40",
   "status": "partial",
   "theorems": [
    "Verif.StringBuffer.C40_call",
    "Verif.StringBuffer.C40_history_partial",
    "Verif.StringBuffer.C40_ofText",
    "Verif.StringBuffer.C40_copy",
    "Verif.StringBuffer.C40_assign",
    "Verif.StringBuffer.C40_capacity",
    "Verif.StringBuffer.C40_negative_capacity",
    "Verif.StringBuffer.C40_deletes_wrong",
    "Verif.StringBuffer.C40_deleteCharAt_wrong",
    "Verif.StringBuffer.C40_setLength_wrong",
    "Verif.StringBuffer.C40_toString_full",
    "Verif.StringBuffer.C40_grown_wrong",
    "Verif.StringBuffer.C40_replace_wrong",
    "Verif.StringBuffer.C40_insertSequence_wrong",
    "Verif.StringBuffer.C40_nul_wrong",
    "Verif.StringBuffer.C40_subString_wrong",
    "Verif.StringBuffer.C40_appendCodePoint_wrong",
    "Verif.StringBuffer.C40_codePoint_high_wrong",
    "Verif.StringBuffer.C40_offsetByCodePoints_wrong",
    "Verif.StringBuffer.C40_self_assign_wrong"
   ],
   "note": "Every history that leaves the spare room the code silently needs refines the abstract text; each of the other cases is refuted for all states (delete, deleteCharAt and setLength on a buffer without spare room, toString after growth, replace by an empty text, insert of a character sequence, ...). Assigning a buffer to itself replaces every character by NUL (C40_self_assign_wrong)."
  },
  {
   "property": "C41",
   "status": "partial",
   "theorems": [
    "Verif.Random.C41_call_partial",
    "Verif.Random.C41_history_partial",
    "Verif.Random.C41_same",
    "Verif.Random.C41_setSeed",
    "Verif.Random.C41_defined",
    "Verif.Random.C41_strict_wrong",
    "Verif.Random.C41_order_wrong"
   ],
   "note": "Every call and every history gives the documented numbers, with wrapping arithmetic and the left operand of + first; same seed and setSeed are proved on every platform choice. In strict C++11 almost every draw overflows (C41_strict_wrong) and the operand order of nextLong is unspecified (C41_order_wrong). Floating point inside nextGaussian is a parameter; nextGaussian is covered whenever its loop ends."
  },
  {
   "property": "C42",
   "status": "proved",
   "theorems": [
    "Verif.Random.C42_range",
    "Verif.Random.C42_raises",
    "Verif.Random.C42_terminates",
    "Verif.Random.C42_draws",
    "Verif.Random.C42_fair"
   ],
   "note": "Range and exception on every platform choice; the loop ends from every state (full period); every value in range is given by exactly 2^31 / bound (rounded down) raw draws."
  },
  {
   "property": "C43",
   "status": "proved",
   "theorems": [
    "Verif.Random.Conc.C43_consecutive",
    "Verif.Random.Conc.C43_once",
    "Verif.Random.Conc.C43_states",
    "Verif.Random.Conc.C43_progress"
   ],
   "note": "Any number of threads, any interleaving of loads, exchanges (failing spuriously too) and stores of setSeed; wrapping arithmetic."
  },
  {
   "property": "C44",
   "status": "proved",
   "theorems": [
    "Verif.Semaphore.C44_balance",
    "Verif.Semaphore.C44_available"
   ],
   "note": "Any number of threads, any interleaving with spurious wake-ups and timeouts; counted when no call is running. Signed overflow of the counter ends the execution (undef)."
  },
  {
   "property": "C45",
   "status": "partial",
   "theorems": [
    "Verif.Semaphore.C45_try_partial",
    "Verif.Semaphore.C45_race_wrong",
    "Verif.Semaphore.C45_spurious_wrong",
    "Verif.Semaphore.C45_negative_wrong"
   ],
   "note": "Holds for tryAcquire and release. False for acquire: two threads take one permit, a spurious wake-up passes without a permit, and with a negative counter acquire never waits."
  },
  {
   "property": "C46",
   "status": "partial",
   "theorems": [
    "Verif.ConcMap.C46_both_told_wrong",
    "Verif.ConcMap.C46_conditional_wrong",
    "Verif.ConcMap.C46_lost_wrong",
    "Verif.ConcMap.C46_at_least_one_partial",
    "Verif.ConcMap.C46_exactly_one_partial"
   ],
   "note": "False: remove looks and erases in two steps. At least one remover is told in every schedule, exactly one when removals of the key do not overlap."
  },
  {
   "property": "C47",
   "status": "proved",
   "theorems": [
    "Verif.Uuid.C47_text",
    "Verif.Uuid.C47_parse",
    "Verif.Uuid.C47_roundtrip"
   ],
   "note": "Both readings of left shifts of negative numbers."
  },
  {
   "property": "C48",
   "status": "proved",
   "theorems": [
    "Verif.Uuid.C48_order",
    "Verif.Uuid.C48_hash",
    "Verif.Uuid.C48_fields"
   ],
   "note": ""
  },
  {
   "property": "C49",
   "status": "proved",
   "theorems": [
    "Verif.LibUuid.C49_pack",
    "Verif.LibUuid.C49_unpack",
    "Verif.LibUuid.C49_unparse",
    "Verif.LibUuid.C49_parse",
    "Verif.LibUuid.C49_roundtrip"
   ],
   "note": "isxdigit of a negative char is taken to answer no."
  },
  {
   "property": "C50",
   "status": "proved",
   "theorems": [
    "Verif.Md5.C50_streaming",
    "Verif.Md5.C50_nothing"
   ],
   "note": "Messages of any length (RFC 1321 takes the length modulo 2^64); each chunk shorter than 2^29 bytes, or up to 2^31 - 64 bytes where shifts wrap."
  },
  {
   "property": "C51",
   "status": "proved",
   "theorems": [
    "Verif.Sha1.C51_streaming",
    "Verif.Sha1.C51_nothing"
   ],
   "note": ""
  },
  {
   "property": "C52",
   "status": "partial",
   "theorems": [
    "Verif.Digest.C82_sha1_lifecycle",
    "Verif.Digest.C52_md5_partial",
    "Verif.Digest.C52_md5_second",
    "Verif.Digest.C52_md5_wrong"
   ],
   "note": "Holds for SHA1. False for MD5: digest() does not reset, and a second digest() gives the digest of the padded message; every MD5 history is described exactly."
  },
  {
   "property": "C53",
   "status": "partial",
   "theorems": [
    "Verif.MediaType.C53_roundtrip_partial",
    "Verif.MediaType.C53_roundtrip_wrong",
    "Verif.MediaType.C88_reflexive",
    "Verif.MediaType.C53_compatible_partial",
    "Verif.MediaType.C53_symmetric_wrong",
    "Verif.MediaType.C53_suffix_wrong"
   ],
   "note": "The round trip holds exactly for clean parts (no space at the outer ends, no second slash, no semicolon, no NUL). isCompatible is reflexive, but not symmetric for a wildcard subtype against a suffixed one, and a suffix wildcard on the argument side is compatible with every subtype of the same type."
  },
  {
   "property": "C54",
   "status": "partial",
   "theorems": [
    "Verif.Date.C54_instants_partial",
    "Verif.Date.C54_comparisons",
    "Verif.Date.C54_fields_wrong",
    "Verif.Date.C54_comparison_wrong",
    "Verif.Date.C54_setter_wrong"
   ],
   "note": "False for fields: all Dates share the static struct tm of the C library. Instants and texts are independent, and comparisons agree with getTime."
  },
  {
   "property": "C55",
   "status": "proved",
   "theorems": [
    "Verif.Wrappers.C55_bytes",
    "Verif.Wrappers.C55_roundtrip",
    "Verif.Wrappers.C55_equals",
    "Verif.Wrappers.C55_parseBoolean",
    "Verif.Wrappers.C55_boolean_text"
   ],
   "note": "parseBoolean for ASCII texts (the conversion through wide characters is modelled for these)."
  },
  {
   "property": "C56",
   "status": "partial",
   "theorems": [
    "Verif.Character.C56_charCount",
    "Verif.Character.C56_digit_partial",
    "Verif.Character.C56_toCodePoint_undefined",
    "Verif.Character.C56_toCodePoint_wrong",
    "Verif.Character.C56_surrogates_wrong",
    "Verif.Character.C56_surrogate_ranges",
    "Verif.Character.C56_digit_radix_wrong",
    "Verif.Character.C56_digit_radix_spec",
    "Verif.Character.C56_digit_capital_wrong"
   ],
   "note": "charCount proved; digit proved for radix 10 and 16 with small letters; toCodePoint is refuted for every surrogate pair (the surrogate constants are multi-character literals), digit for every other radix and for capitals."
  },
  {
   "property": "C57",
   "status": "proved",
   "theorems": [
    "Verif.MathOps.C57_abs",
    "Verif.MathOps.C57_abs_min",
    "Verif.MathOps.C57_max_min"
   ],
   "note": "abs proved for every value but the smallest, for which it returns a negative number / is undefined."
  },
  {
   "property": "C58",
   "status": "partial",
   "theorems": [
    "Verif.JString.C58_replaceFirst_partial",
    "Verif.JString.C58_replaceFirst_wrong"
   ],
   "note": "Proved when the first occurrence is not at the end; otherwise the call raises (C58_replaceFirst_wrong)."
  },
  {
   "property": "C59",
   "status": "proved",
   "theorems": [
    "Verif.JString.C59_split_limit"
   ],
   "note": "Every non-empty delimiter (the empty one diverges, see C33)."
  },
  {
   "property": "C60",
   "status": "partial",
   "theorems": [
    "Verif.NumText.C60_decode_partial",
    "Verif.NumText.C60_decode_range",
    "Verif.NumText.C60_decode_wrong"
   ],
   "note": "All literals with magnitude up to the largest int; the smallest int, -0 and a plus sign are mishandled (C60_decode_wrong)."
  },
  {
   "property": "C61",
   "status": "partial",
   "theorems": [
    "Verif.NumText.C61_toHexString",
    "Verif.NumText.C61_toOctalString_partial",
    "Verif.NumText.C61_toOctalString_wrong"
   ],
   "note": "Binary and hexadecimal for every long; octal only for non-negative ones (C61_toOctalString_wrong)."
  },
  {
   "property": "C62",
   "status": "proved",
   "theorems": [
    "Verif.BitSet.C62_hashCode",
    "Verif.BitSet.C62_strict_undefined"
   ],
   "note": "On a wrapping machine; under ISO C++ the products may overflow (C62_strict_undefined)."
  },
  {
   "property": "C63",
   "status": "partial",
   "theorems": [
    "Verif.BitSet.C63_toString_partial",
    "Verif.BitSet.C63_max_wrong",
    "Verif.BitSet.C63_many_wrong"
   ],
   "note": "False: with the member INT_MAX or with 357913941 members or more an int addition overflows. Proved for every other set."
  },
  {
   "property": "C64",
   "status": "partial",
   "theorems": [
    "Verif.BitSet.C64_double_free",
    "Verif.BitSet.C64_release_partial"
   ],
   "note": "False: the exact set of failing histories is characterised by C64_double_free."
  },
  {
   "property": "C65",
   "status": "proved",
   "theorems": [
    "Verif.Character.C65_no_surrogates",
    "Verif.Character.C65_codePointAt",
    "Verif.Character.C65_codePointBefore",
    "Verif.Character.C65_limits",
    "Verif.Character.C65_codePointCount",
    "Verif.Character.C65_compare"
   ],
   "note": ""
  },
  {
   "property": "C66",
   "status": "proved",
   "theorems": [
    "Verif.StringBuilder.C66_queries",
    "Verif.StringBuilder.C38_capacity",
    "Verif.StringBuilder.C38_copy"
   ],
   "note": ""
  },
  {
   "property": "C67",
   "status": "proved",
   "theorems": [
    "Verif.Vector.C67_capacity"
   ],
   "note": ""
  },
  {
   "property": "C68",
   "status": "partial",
   "theorems": [
    "Verif.StringBuffer.C68_indexOfFrom_partial",
    "Verif.StringBuffer.C68_indexOf_partial",
    "Verif.StringBuffer.C68_indexOf_empty",
    "Verif.StringBuffer.C68_lastIndexOf",
    "Verif.StringBuffer.C68_lastIndexOfFrom_partial",
    "Verif.StringBuffer.C68_lastIndexOfFrom_wrong",
    "Verif.StringBuffer.C68_still"
   ],
   "note": "Proved for buffers readable as C strings; the empty pattern and large starts of lastIndexOf are refuted for every text."
  },
  {
   "property": "C69",
   "status": "partial",
   "theorems": [
    "Verif.Random.C69_copy_partial",
    "Verif.Random.C69_copy_wrong"
   ],
   "note": "Holds when no Gaussian is kept; otherwise false: the copy constructor does not copy the kept number."
  },
  {
   "property": "C70",
   "status": "partial",
   "theorems": [
    "Verif.Random.C70_nextBytes_wrong"
   ],
   "note": "False for every array that is not empty: the bytes are appended and the elements stay."
  },
  {
   "property": "C71",
   "status": "partial",
   "theorems": [
    "Verif.Random.C71_nextString_wrong"
   ],
   "note": "False for every length: the terminating zero is written past the array."
  },
  {
   "property": "C72",
   "status": "proved",
   "theorems": [
    "Verif.Random.C72_period"
   ],
   "note": "Wrapping arithmetic."
  },
  {
   "property": "C73",
   "status": "proved",
   "theorems": [
    "Verif.Random.Conc.C73_distinct"
   ],
   "note": "Wrapping arithmetic."
  },
  {
   "property": "C74",
   "status": "partial",
   "theorems": [
    "Verif.Semaphore.C74_lost_wrong",
    "Verif.Semaphore.C74_one_of_two_wrong",
    "Verif.Semaphore.C74_wakes_partial"
   ],
   "note": "False: a wake-up between the look at the counter and the wait is lost, and release(2) wakes one of two waiters. A notification while threads sleep does wake one."
  },
  {
   "property": "C75",
   "status": "proved",
   "theorems": [
    "Verif.Semaphore.C75_no_deadlock",
    "Verif.Semaphore.C75_exclusive"
   ],
   "note": "Every execution without overflow of the counter."
  },
  {
   "property": "C76",
   "status": "partial",
   "theorems": [
    "Verif.Uuid.C76_count_wrong",
    "Verif.Uuid.C76_digits_wrong",
    "Verif.Uuid.C76_digits_strict_wrong"
   ],
   "note": "False: a text with another number of dashes gives the nil UUID, letters outside a-f and upper-case digits are read as garbage, and groups of other lengths are accepted."
  },
  {
   "property": "C77",
   "status": "partial",
   "theorems": [
    "Verif.Uuid.C77_variant_partial",
    "Verif.Uuid.C77_variant_wrong"
   ],
   "note": "Proved when the top variant bit is clear, for wrapping shifts. False for every UUID of the RFC 4122 variant: undefined in C++11, and bits 2 to 33 on x86-64."
  },
  {
   "property": "C78",
   "status": "proved",
   "theorems": [
    "Verif.LibUuid.C78_compare",
    "Verif.LibUuid.C78_null"
   ],
   "note": ""
  },
  {
   "property": "C79",
   "status": "proved",
   "theorems": [
    "Verif.LibUuid.C79_random",
    "Verif.LibUuid.C79_randomUUID",
    "Verif.LibUuid.C79_time",
    "Verif.LibUuid.C79_uuid_time",
    "Verif.LibUuid.C79_type_variant"
   ],
   "note": "uuid_time: for seconds below 2^36 and a clock adjustment below 10."
  },
  {
   "property": "C80",
   "status": "partial",
   "theorems": [
    "Verif.LibUuid.C80_distinct_partial",
    "Verif.LibUuid.C80_wrong",
    "Verif.LibUuid.C80_eleven"
   ],
   "note": "False: MAX_ADJUSTMENT lets an eleventh UUID of a microsecond through, equal to the first one of the next. Proved for clocks that give no microsecond more than ten times in a row and go back fewer than 2^14 times."
  },
  {
   "property": "C81",
   "status": "partial",
   "theorems": [
    "Verif.Md5.C81_shift_wrong",
    "Verif.Md5.C81_sum_wrong",
    "Verif.Md5.C81_chunk_partial"
   ],
   "note": "False: from 2^29 bytes on a left shift overflows (undefined in C++11), and the sum of offset and length overflows for the last 63 lengths on every platform. Proved up to 2^31 - 64 bytes where shifts wrap."
  },
  {
   "property": "C82",
   "status": "proved",
   "theorems": [
    "Verif.Digest.C82_sha1_lifecycle"
   ],
   "note": "Pointers reach as far as the given lengths, lengths are not negative."
  },
  {
   "property": "C83",
   "status": "proved",
   "theorems": [
    "Verif.Digest.C83_after_reset"
   ],
   "note": "Chunks within the limit of one update."
  },
  {
   "property": "C84",
   "status": "proved",
   "theorems": [
    "Verif.Digest.C84_names",
    "Verif.Digest.C84_no_trace"
   ],
   "note": ""
  },
  {
   "property": "C85",
   "status": "partial",
   "theorems": [
    "Verif.Digest.C85_destroy_wrong",
    "Verif.Digest.C85_use_wrong",
    "Verif.Digest.C85_shared_wrong",
    "Verif.Digest.C85_single_partial"
   ],
   "note": "False for every state: the engine is shared and freed twice."
  },
  {
   "property": "C86",
   "status": "proved",
   "theorems": [
    "Verif.MediaType.C86_valueOf",
    "Verif.MediaType.C86_refuse",
    "Verif.MediaType.C86_make"
   ],
   "note": "Parameters are not kept by the model; the code does not use them in these calls."
  },
  {
   "property": "C87",
   "status": "proved",
   "theorems": [
    "Verif.MediaType.C87_stable"
   ],
   "note": ""
  },
  {
   "property": "C88",
   "status": "proved",
   "theorems": [
    "Verif.MediaType.C88_reflexive",
    "Verif.MediaType.C88_any",
    "Verif.MediaType.C88_plain"
   ],
   "note": ""
  },
  {
   "property": "C89",
   "status": "proved",
   "theorems": [
    "Verif.Wrappers.C89_integer"
   ],
   "note": "Int overflow is undefined in C++, so histories are those whose results are ints."
  },
  {
   "property": "C90",
   "status": "partial",
   "theorems": [
    "Verif.Wrappers.C90_long_partial",
    "Verif.Wrappers.C90_long_wrong",
    "Verif.Wrappers.C90_text_wrong"
   ],
   "note": "False: compound assignments leave the text behind. Holds without them."
  },
  {
   "property": "C91",
   "status": "proved",
   "theorems": [
    "Verif.Wrappers.C91_short",
    "Verif.Wrappers.C91_short_text"
   ],
   "note": ""
  },
  {
   "property": "C92",
   "status": "partial",
   "theorems": [
    "Verif.Wrappers.C92_checked",
    "Verif.Wrappers.C92_unchecked_wrong"
   ],
   "note": "True for Bytes and Integer, false for Short and Long."
  },
  {
   "property": "C93",
   "status": "partial",
   "theorems": [
    "Verif.Wrappers.C93_first_partial",
    "Verif.Wrappers.C93_second_wrong"
   ],
   "note": "False: the first call deletes the shared cache, every second call uses it."
  },
  {
   "property": "C94",
   "status": "partial",
   "theorems": [
    "Verif.Wrappers.C94_parseBytes_partial",
    "Verif.Wrappers.C94_parseBytes_wrong",
    "Verif.Wrappers.C94_decodeBytes_partial"
   ],
   "note": "False for trailing text and for magnitudes near 2^64."
  },
  {
   "property": "C95",
   "status": "partial",
   "theorems": [
    "Verif.Wrappers.C95_constructor_partial",
    "Verif.Wrappers.C95_constructor_wrong"
   ],
   "note": "False: the constructor accepts \"True\" only."
  },
  {
   "property": "C96",
   "status": "partial",
   "theorems": [
    "Verif.Wrappers.C96_parseShort_partial",
    "Verif.Wrappers.C96_out_of_range_wrong",
    "Verif.Wrappers.C96_no_number_wrong"
   ],
   "note": "False: numbers out of range wrap silently and texts without digits read an uninitialised variable."
  },
  {
   "property": "C97",
   "status": "proved",
   "theorems": [
    "Verif.ConcMap.C97_current"
   ],
   "note": "Operations of the underlying table are atomic (C107)."
  },
  {
   "property": "C98",
   "status": "proved",
   "theorems": [
    "Verif.ConcMap.C98_other_keys"
   ],
   "note": "Operations of the underlying table are atomic (C107)."
  },
  {
   "property": "C99",
   "status": "proved",
   "theorems": [
    "Verif.Date.C99_lone"
   ],
   "note": "Zones with a fixed offset."
  },
  {
   "property": "C100",
   "status": "proved",
   "theorems": [
    "Verif.Date.C100_fields"
   ],
   "note": "Zones with a fixed offset."
  },
  {
   "property": "C101",
   "status": "partial",
   "theorems": [
    "Verif.Date.C101_text_partial",
    "Verif.Date.C101_unknown_zone_wrong",
    "Verif.Date.C101_numeric_zone_wrong"
   ],
   "note": "False: names of zones outside a table of eleven make parse throw. Proved for the zones of the table and years from 100."
  },
  {
   "property": "C102",
   "status": "partial",
   "theorems": [
    "Verif.Date.C102_locale_partial",
    "Verif.Date.C102_year_wrong"
   ],
   "note": "False: years before 100 are read as years of two digits. Proved from year 100."
  },
  {
   "property": "C103",
   "status": "partial",
   "theorems": [
    "Verif.Date.C103_gmt_text",
    "Verif.Date.C103_parse_partial",
    "Verif.Date.C103_fields_wrong",
    "Verif.Date.C103_setter_wrong"
   ],
   "note": "The text is right; reading it back for years from 100. False: it leaves the fields of Greenwich behind, and a setter then moves the Date."
  },
  {
   "property": "C104",
   "status": "partial",
   "theorems": [
    "Verif.Date.C104_utc_partial",
    "Verif.Date.C104_utc_wrong"
   ],
   "note": "False in every zone with an offset: the fields are read as local and milliseconds passed for seconds. Instants within 30000 years."
  },
  {
   "property": "C105",
   "status": "partial",
   "theorems": [
    "Verif.Date.C105_time_partial",
    "Verif.Date.C105_time_wrong"
   ],
   "note": "False: milliseconds are dropped."
  },
  {
   "property": "C106",
   "status": "partial",
   "theorems": [
    "Verif.Date.C106_parse_partial",
    "Verif.Date.C106_overflow_wrong"
   ],
   "note": "False: longer numbers overflow an int. Proved for texts without brackets and with at most seven digits in a row."
  },
  {
   "property": "C107",
   "status": "proved",
   "theorems": [
    "Verif.Cuckoo.C107_linearizable"
   ],
   "note": "Interleaving of critical sections; each section (locks held) is one step."
  },
  {
   "property": "C108",
   "status": "proved",
   "theorems": [
    "Verif.Cuckoo.C108_defined",
    "Verif.Cuckoo.C108_ends"
   ],
   "note": ""
  },
  {
   "property": "C109",
   "status": "proved",
   "theorems": [
    "Verif.Cuckoo.C109_contents",
    "Verif.Cuckoo.C109_once"
   ],
   "note": ""
  },
  {
   "property": "C110",
   "status": "proved",
   "theorems": [
    "Verif.Cuckoo.C110_forEach"
   ],
   "note": ""
  },
  {
   "property": "C111",
   "status": "proved",
   "theorems": [
    "Verif.Cuckoo.C111_containsValue"
   ],
   "note": ""
  },
  {
   "property": "C112",
   "status": "partial",
   "theorems": [
    "Verif.Cuckoo.C112_clear_partial",
    "Verif.Cuckoo.C112_clear_wrong",
    "Verif.Cuckoo.C112_freed_wrong"
   ],
   "note": "False beside other threads: clear() drops its locks before it clears. Holds while no other thread is in a call."
  },
  {
   "property": "C113",
   "status": "partial",
   "theorems": [
    "Verif.Cuckoo.C113_copy_partial",
    "Verif.Cuckoo.C113_copy_wrong",
    "Verif.Cuckoo.C113_cleared_wrong"
   ],
   "note": "False: after forEach, containsValue, begin, end, clear or a completed growth, copying reads freed memory. Holds before that."
  },
  {
   "property": "C114",
   "status": "partial",
   "theorems": [
    "Verif.Cuckoo.C114_put_partial",
    "Verif.Cuckoo.C114_nine_wrong"
   ],
   "note": "False: one of nine keys with the same hash is refused with an exception. Otherwise a put that fails found the load below one twentieth."
  },
  {
   "property": "C115",
   "status": "proved",
   "theorems": [
    "Verif.Cuckoo.C115_exclusive",
    "Verif.Cuckoo.C115_progress",
    "Verif.Cuckoo.C115_plans",
    "Verif.WeakLock.C115_memory"
   ],
   "note": "C115_memory: the same under the C++11 memory model."
  },
  {
   "property": "C116",
   "status": "partial",
   "theorems": [
    "Verif.Cuckoo.C116_reentrant_wrong"
   ],
   "note": "False: it waits for ever and so do all other threads. Nothing of the claim is left to prove."
  },
  {
   "property": "C117",
   "status": "partial",
   "theorems": [
    "Verif.Date.C117_slashes",
    "Verif.Date.C117_pure_partial",
    "Verif.Date.C117_year_wrong"
   ],
   "note": "The instants are right. False: a year of two digits overwrites the fields that every Date shows, with the year counted from 0."
  },
  {
   "property": "C118",
   "status": "partial",
   "theorems": [
    "Verif.Thread.C118_join_partial",
    "Verif.Thread.C118_spurious_wrong"
   ],
   "note": "False with spurious wake-ups of the condition variable. Proved without them."
  },
  {
   "property": "C119",
   "status": "partial",
   "theorems": [
    "Verif.Thread.C119_returns_partial",
    "Verif.Thread.C119_second_wrong",
    "Verif.Thread.C119_unstarted_wrong",
    "Verif.Thread.C119_derived_wrong"
   ],
   "note": "False: join consumes a permit, so it returns once for each time the function returned, and never for a thread not started or for a derived class with its own run(). Proved for the joins that have a permit."
  },
  {
   "property": "C120",
   "status": "partial",
   "theorems": [
    "Verif.Thread.C120_alive_partial",
    "Verif.Thread.C120_start_wrong",
    "Verif.Thread.C120_join_wrong",
    "Verif.Thread.C120_derived_wrong"
   ],
   "note": "False right after start(), right after join() and for derived classes. Proved: the answer is whether a thread is in the function or past it and not through with the run."
  },
  {
   "property": "C121",
   "status": "partial",
   "theorems": [
    "Verif.Thread.C121_once_partial",
    "Verif.Thread.C121_unblocked",
    "Verif.Thread.C121_restart_wrong",
    "Verif.Thread.C121_null_wrong"
   ],
   "note": "False: a second start() ends the program, the function of Thread() is undefined. Proved for one start()."
  },
  {
   "property": "C122",
   "status": "partial",
   "theorems": [
    "Verif.Thread.C122_destroy_partial",
    "Verif.Thread.C122_detach_wrong",
    "Verif.Thread.C122_waiter_wrong"
   ],
   "note": "False for detached threads and for threads waiting in join(). Proved otherwise."
  },
  {
   "property": "C123",
   "status": "partial",
   "theorems": [
    "Verif.Thread.C123_detach_partial",
    "Verif.Thread.C123_once",
    "Verif.Thread.C123_unstarted_wrong",
    "Verif.Thread.C123_race_wrong",
    "Verif.Thread.C123_twice_wrong"
   ],
   "note": "False: before start() and for the second of two calls at the same time the exception is std::system_error, and two calls may detach two threads. Proved for every other call; at most one detach per start in every interleaving."
  },
  {
   "property": "C124",
   "status": "partial",
   "theorems": [
    "Verif.Thread.C124_current_partial",
    "Verif.Thread.C124_main_wrong",
    "Verif.Thread.C124_run_wrong",
    "Verif.Thread.C124_id_partial",
    "Verif.Thread.C124_id_wrong"
   ],
   "note": "False: null on the main thread, a destroyed object after run() by hand, number 0 right after start(). Proved in the function."
  },
  {
   "property": "C125",
   "status": "proved",
   "theorems": [
    "Verif.LinkedQueue.C125_each_once",
    "Verif.LinkedQueue.C125_no_more"
   ],
   "note": "Sequentially consistent memory; one step per atomic access."
  },
  {
   "property": "C126",
   "status": "proved",
   "theorems": [
    "Verif.LinkedQueue.C126_thread_order"
   ],
   "note": ""
  },
  {
   "property": "C127",
   "status": "proved",
   "theorems": [
    "Verif.LinkedQueue.C127_next_step",
    "Verif.LinkedQueue.C127_never_refused"
   ],
   "note": "Memory is never short; elements do not throw."
  },
  {
   "property": "C128",
   "status": "partial",
   "theorems": [
    "Verif.LinkedQueue.C128_bounded_partial",
    "Verif.LinkedQueue.C128_ends_partial",
    "Verif.FreeList.C220_each_call_wrong"
   ],
   "note": "Bounded apart from the loops of the free list and of the table of producers, which are one step each here. The full statement is false: another thread can keep the loop of the free list going for ever (C220_each_call_wrong)."
  },
  {
   "property": "C129",
   "status": "partial",
   "theorems": [
    "Verif.LinkedQueue.C129_lone_poll_partial",
    "Verif.LinkedQueue.C129_overlap_wrong"
   ],
   "note": "False beside another poll: both may find nothing while an element is there. Proved for a poll that no other poll overlaps."
  },
  {
   "property": "C130",
   "status": "partial",
   "theorems": [
    "Verif.LinkedQueue.C130_size_partial",
    "Verif.LinkedQueue.C130_isEmpty_partial",
    "Verif.LinkedQueue.C130_never_empty_wrong",
    "Verif.LinkedQueue.C130_size_wrong"
   ],
   "note": "False beside other calls: isEmpty() may be true of a queue that never was empty; 2^31 elements are a negative size. Proved for calls nothing overlaps."
  },
  {
   "property": "C131",
   "status": "partial",
   "theorems": [
    "Verif.LinkedQueue.C131_in_turn_partial",
    "Verif.LinkedQueue.C131_one_adder_partial",
    "Verif.LinkedQueue.C131_order_wrong"
   ],
   "note": "False across adding threads. Proved for calls in turn: the order of each thread, and a plain queue when one thread adds."
  },
  {
   "property": "C132",
   "status": "partial",
   "theorems": [
    "Verif.LinkedQueue.C132_offer_wrong",
    "Verif.LinkedQueue.C132_clear_wrong",
    "Verif.LinkedQueue.C132_contains_wrong",
    "Verif.LinkedQueue.C132_throws_wrong"
   ],
   "note": "False: none of these members touches the queue. Nothing of the claim is left to prove."
  },
  {
   "property": "C133",
   "status": "partial",
   "theorems": [
    "Verif.LinkedQueue.C133_element_partial",
    "Verif.LinkedQueue.C133_empty_wrong",
    "Verif.LinkedQueue.C133_indeterminate_wrong"
   ],
   "note": "False: an empty queue yields a default-initialised element, an indeterminate one for numbers and pointers. Proved that an element is one some add put in."
  },
  {
   "property": "C134",
   "status": "partial",
   "theorems": [
    "Verif.Floats.C134_bits_partial",
    "Verif.Floats.C134_special_partial",
    "Verif.Floats.C134_negative_wrong",
    "Verif.Floats.C134_minus_zero_wrong",
    "Verif.Floats.C134_half_wrong",
    "Verif.Floats.C134_tiny_wrong",
    "Verif.Floats.C134_big_wrong"
   ],
   "note": "False: the first binary place after the point is dropped from 1 on, negative values give minus the bits, small values the bits of 1, values from 2^30 undefined behaviour. Proved for the other values above zero, infinity and NaN."
  },
  {
   "property": "C135",
   "status": "partial",
   "theorems": [
    "Verif.Floats.C135_compare_partial",
    "Verif.Floats.C135_operators_partial",
    "Verif.Floats.C135_zero_wrong",
    "Verif.Floats.C135_half_wrong",
    "Verif.Floats.C135_reversed_wrong",
    "Verif.Floats.C135_tiny_wrong"
   ],
   "note": "False: 1.5 is equal to 1 and below 1.25. Proved for the values whose bits are right, of either sign."
  },
  {
   "property": "C136",
   "status": "partial",
   "theorems": [
    "Verif.Floats.C136_equals_partial",
    "Verif.Floats.C136_half_wrong",
    "Verif.Floats.C136_big_wrong"
   ],
   "note": "False: 1 equals 1.5; undefined behaviour from 2^30. The laws of an equivalence are proved below 2^30."
  },
  {
   "property": "C137",
   "status": "partial",
   "theorems": [
    "Verif.Floats.C137_normal_partial",
    "Verif.Floats.C137_float_partial",
    "Verif.Floats.C137_round_trip_partial",
    "Verif.Floats.C137_subnormal_wrong",
    "Verif.Floats.C137_nan_wrong",
    "Verif.Floats.C137_negative_wrong",
    "Verif.Floats.C137_min_wrong"
   ],
   "note": "False for zero, subnormal and negative values and NaN of longBitsToDouble. intBitsToFloat is right for every pattern."
  },
  {
   "property": "C138",
   "status": "proved",
   "theorems": [
    "Verif.Floats.C138_classes"
   ],
   "note": ""
  },
  {
   "property": "C139",
   "status": "partial",
   "theorems": [
    "Verif.Floats.C139_max_partial",
    "Verif.Floats.C139_min_wrong"
   ],
   "note": "False: MIN_VALUE and MIN_NORMAL are each what the other should be."
  },
  {
   "property": "C140",
   "status": "partial",
   "theorems": [
    "Verif.Floats.C140_fits_partial",
    "Verif.Floats.C140_outside_wrong"
   ],
   "note": "False: undefined behaviour for what does not fit, where Java gives the nearest number or 0."
  },
  {
   "property": "C141",
   "status": "partial",
   "theorems": [
    "Verif.Floats.C141_abs_partial",
    "Verif.Floats.C141_abs_wrong",
    "Verif.Floats.C141_max_partial",
    "Verif.Floats.C141_min_partial",
    "Verif.Floats.C141_max_min_wrong",
    "Verif.Floats.C141_signum"
   ],
   "note": "False: abs(-0.0) is -0.0, a NaN as first argument of max and min is ignored, of two zeros the second is returned."
  },
  {
   "property": "C142",
   "status": "partial",
   "theorems": [
    "Verif.Floats.C142_exponent_partial",
    "Verif.Floats.C142_exponent_wrong",
    "Verif.Floats.C142_ulp_wrong",
    "Verif.Floats.C142_ulp_float_wrong",
    "Verif.Floats.C142_ulp_partial"
   ],
   "note": "False: getExponent of negative subnormal values, ulp of every finite value but the largest."
  },
  {
   "property": "C143",
   "status": "partial",
   "theorems": [
    "Verif.Floats.C143_next_down_partial",
    "Verif.Floats.C143_zero_wrong"
   ],
   "note": "False for zero. Otherwise proved from the promise of nexttoward."
  },
  {
   "property": "C144",
   "status": "partial",
   "theorems": [
    "Verif.Floats.C144_round_partial",
    "Verif.Floats.C144_negative_half_wrong",
    "Verif.Floats.C144_outside_wrong"
   ],
   "note": "False: negative halves are rounded down, undefined behaviour out of range. Proved otherwise."
  },
  {
   "property": "C145",
   "status": "proved",
   "theorems": [
    "Verif.FloatText.C145_defined"
   ],
   "note": ""
  },
  {
   "property": "C146",
   "status": "partial",
   "theorems": [
    "Verif.FloatText.C146_double_partial",
    "Verif.FloatText.C146_float_partial",
    "Verif.FloatText.C146_wrong"
   ],
   "note": "False: values below half of 1e-15 have the text of zero, infinite values and NaN the texts of C. Proved: a Double has 15 places, correctly rounded; a Float six digits, correctly rounded."
  },
  {
   "property": "C147",
   "status": "proved",
   "theorems": [
    "Verif.FloatText.C147_double",
    "Verif.FloatText.C147_float"
   ],
   "note": "With a digit before the point."
  },
  {
   "property": "C148",
   "status": "partial",
   "theorems": [
    "Verif.FloatText.C148_double_partial",
    "Verif.FloatText.C148_double_wrong",
    "Verif.FloatText.C148_float_partial",
    "Verif.FloatText.C148_float_wrong"
   ],
   "note": "False: small doubles become zero, whole floats from a million on change. Proved for doubles from 8 on, multiples of 2^-15, infinite values, NaN, and whole floats below a million."
  },
  {
   "property": "C149",
   "status": "partial",
   "theorems": [
    "Verif.FloatText.C149_same_partial",
    "Verif.FloatText.C149_wrong"
   ],
   "note": "False: Double() and Double(0.0), 0.0 and -0.0, a Float and one assigned from it have other texts and hashes."
  },
  {
   "property": "C150",
   "status": "partial",
   "theorems": [
    "Verif.FloatText.C150_result_partial",
    "Verif.FloatText.C150_wrong"
   ],
   "note": "False: the object is never changed. The result is right."
  },
  {
   "property": "C151",
   "status": "partial",
   "theorems": [
    "Verif.FloatText.C151_wrong",
    "Verif.FloatText.C151_rest_wrong"
   ],
   "note": "False: an uninitialised variable is read, text after the number is ignored."
  },
  {
   "property": "C152",
   "status": "partial",
   "theorems": [
    "Verif.FloatText.C152_decimal_partial",
    "Verif.FloatText.C152_wrong"
   ],
   "note": "False: 123.456 is printed as 123.456000000000003. Proved below 4.5 for at most 15 places."
  },
  {
   "property": "C153",
   "status": "proved",
   "theorems": [
    "Verif.LightSema.C153_never_more",
    "Verif.LightSema.C153_none_lost",
    "Verif.LightSema.C153_available",
    "Verif.WeakSema.C153_memory"
   ],
   "note": ""
  },
  {
   "property": "C154",
   "status": "proved",
   "theorems": [
    "Verif.LightSema.C154_no_lost_wakeup",
    "Verif.LightSema.C154_wakes",
    "Verif.LightSema.C154_posts",
    "Verif.WeakSema.C154_memory"
   ],
   "note": ""
  },
  {
   "property": "C155",
   "status": "partial",
   "theorems": [
    "Verif.LightSema.C155_ends_partial",
    "Verif.LightSema.C155_wrong"
   ],
   "note": "False: while a signaller stands still between its addition and its post, a waiter whose time is up loops for ever. Proved when no call of signal is running."
  },
  {
   "property": "C156",
   "status": "partial",
   "theorems": [
    "Verif.LightSema.C156_results",
    "Verif.LightSema.C156_wait_true",
    "Verif.LightSema.C156_wait_many",
    "Verif.LightSema.C156_try",
    "Verif.LightSema.C156_zero_wrong"
   ],
   "note": "False for waitMany(0), which fails its own assert. Proved otherwise."
  },
  {
   "property": "C157",
   "status": "proved",
   "theorems": [
    "Verif.LightSema.C157_at_hand",
    "Verif.LightSema.C157_signal"
   ],
   "note": ""
  },
  {
   "property": "C158",
   "status": "proved",
   "theorems": [
    "Verif.LightSema.C158_deadline"
   ],
   "note": ""
  },
  {
   "property": "C159",
   "status": "proved",
   "theorems": [
    "Verif.BlockQueue.C159_conserved"
   ],
   "note": "The inner queue is a bag."
  },
  {
   "property": "C160",
   "status": "proved",
   "theorems": [
    "Verif.BlockQueue.C160_enough",
    "Verif.BlockQueue.C160_finds"
   ],
   "note": "The inner queue is a bag."
  },
  {
   "property": "C161",
   "status": "proved",
   "theorems": [
    "Verif.BlockQueue.C161_no_lost_wakeup"
   ],
   "note": "The inner queue is a bag."
  },
  {
   "property": "C162",
   "status": "proved",
   "theorems": [
    "Verif.BlockQueue.C162_size"
   ],
   "note": ""
  },
  {
   "property": "C163",
   "status": "proved",
   "theorems": [
    "Verif.BlockQueue.C163_alone"
   ],
   "note": "The inner queue is a bag."
  },
  {
   "property": "C164",
   "status": "partial",
   "theorems": [
    "Verif.BlockQueue.C164_results",
    "Verif.BlockQueue.C164_zero_wrong",
    "Verif.BlockQueue.C164_huge_wrong"
   ],
   "note": "False: wait_dequeue_bulk with max 0 and bulk calls with max from 2^63 on fail an assert. The results of calls that return are proved."
  },
  {
   "property": "C165",
   "status": "proved",
   "theorems": [
    "Verif.FreeList.C165_one_owner"
   ],
   "note": "Sequentially consistent memory."
  },
  {
   "property": "C166",
   "status": "proved",
   "theorems": [
    "Verif.FreeList.C166_none_lost",
    "Verif.FreeList.C166_at_rest"
   ],
   "note": "Sequentially consistent memory."
  },
  {
   "property": "C167",
   "status": "proved",
   "theorems": [
    "Verif.FreeList.C167_no_failure"
   ],
   "note": "Sequentially consistent memory."
  },
  {
   "property": "C168",
   "status": "proved",
   "theorems": [
    "Verif.FreeList.C168_some"
   ],
   "note": "Sequentially consistent memory."
  },
  {
   "property": "C169",
   "status": "proved",
   "theorems": [
    "Verif.FreeList.C169_alone"
   ],
   "note": ""
  },
  {
   "property": "C170",
   "status": "proved",
   "theorems": [
    "Verif.FreeList.C170_add",
    "Verif.FreeList.C170_get"
   ],
   "note": ""
  },
  {
   "property": "C171",
   "status": "proved",
   "theorems": [
    "Verif.ProdHash.C171_same"
   ],
   "note": "Sequentially consistent memory."
  },
  {
   "property": "C172",
   "status": "proved",
   "theorems": [
    "Verif.ProdHash.C172_distinct"
   ],
   "note": "Sequentially consistent memory."
  },
  {
   "property": "C173",
   "status": "proved",
   "theorems": [
    "Verif.ProdHash.C173_none_lost"
   ],
   "note": "Sequentially consistent memory."
  },
  {
   "property": "C174",
   "status": "proved",
   "theorems": [
    "Verif.ProdHash.C174_free",
    "Verif.ProdHash.C174_find",
    "Verif.ProdHash.C174_insert",
    "Verif.ProdHash.C174_copy"
   ],
   "note": "Sequentially consistent memory."
  },
  {
   "property": "C175",
   "status": "proved",
   "theorems": [
    "Verif.ProdHash.C175_memory"
   ],
   "note": ""
  },
  {
   "property": "C176",
   "status": "proved",
   "theorems": [
    "Verif.ProdHash.C176_wait_free"
   ],
   "note": ""
  },
  {
   "property": "C177",
   "status": "partial",
   "theorems": [
    "Verif.ProdHash.C177_alone_partial",
    "Verif.ProdHash.C177_stuck_wrong"
   ],
   "note": "False: a thread that stands still while it makes a new table makes others wait for ever. Proved when no other thread stands there."
  },
  {
   "property": "C178",
   "status": "proved",
   "theorems": [
    "Verif.ProdHash.C178_size"
   ],
   "note": ""
  },
  {
   "property": "C179",
   "status": "partial",
   "theorems": [
    "Verif.Kernel.C179_history_partial",
    "Verif.Kernel.C179_made",
    "Verif.Kernel.C179_length_wrong"
   ],
   "note": "Below 2^31 elements; above, `length` is proved wrong."
  },
  {
   "property": "C180",
   "status": "partial",
   "theorems": [
    "Verif.Kernel.C180_each_partial",
    "Verif.Kernel.C180_each_wrong"
   ],
   "note": "Below 2^31 elements; from there on the loop is proved undefined."
  },
  {
   "property": "C181",
   "status": "partial",
   "theorems": [
    "Verif.Kernel.C181_start_partial",
    "Verif.Kernel.C181_error_wrong"
   ],
   "note": "False for errors: their message is never printed. The rest is proved."
  },
  {
   "property": "C182",
   "status": "partial",
   "theorems": [
    "Verif.Kernel.C182_equivalence",
    "Verif.Kernel.C182_identity_partial",
    "Verif.Kernel.C182_equal_wrong"
   ],
   "note": "An equivalence that agrees with hashCode; false that it tells values apart: it compares hash codes only."
  },
  {
   "property": "C183",
   "status": "partial",
   "theorems": [
    "Verif.Kernel.C183_exact_partial",
    "Verif.Kernel.C183_derived_wrong"
   ],
   "note": "True for the very class only; refuted for all proper base classes."
  },
  {
   "property": "C184",
   "status": "partial",
   "theorems": [
    "Verif.Kernel.C184_compare_partial",
    "Verif.Kernel.C184_compare_wrong"
   ],
   "note": "For numbers from 0 on; undefined when the difference overflows."
  },
  {
   "property": "C185",
   "status": "partial",
   "theorems": [
    "Verif.Kernel.C185_given_partial",
    "Verif.Kernel.C185_cause_wrong"
   ],
   "note": "The cause is an unset pointer if none was given."
  },
  {
   "property": "C186",
   "status": "proved",
   "theorems": [
    "Verif.Kernel.C186_content",
    "Verif.Kernel.C186_size"
   ],
   "note": ""
  },
  {
   "property": "C187",
   "status": "partial",
   "theorems": [
    "Verif.Kernel.C187_answers_wrong"
   ],
   "note": "False: most answers are constants. Only the refutation is proved."
  },
  {
   "property": "C188",
   "status": "partial",
   "theorems": [
    "Verif.Net.C188_copy_partial",
    "Verif.Net.C188_parse_wrong"
   ],
   "note": "False: no text is parsed, and the port is never set. Copies and texts of other URLs are proved."
  },
  {
   "property": "C189",
   "status": "partial",
   "theorems": [
    "Verif.Net.C189_settings_partial",
    "Verif.Net.C189_unset_wrong"
   ],
   "note": "False: five settings are not initialised, and most ways to make a connection copy an unset port."
  },
  {
   "property": "C190",
   "status": "partial",
   "theorems": [
    "Verif.DateFormat.C190_text_partial",
    "Verif.DateFormat.C190_new_partial",
    "Verif.DateFormat.C190_long_wrong",
    "Verif.DateFormat.C190_blanks_wrong"
   ],
   "note": "Texts of less than 80 bytes, without the blanks at both ends, which are lost. Longer texts are undefined."
  },
  {
   "property": "C191",
   "status": "partial",
   "theorems": [
    "Verif.DateFormat.C191_dates_partial",
    "Verif.DateFormat.C191_fields_wrong"
   ],
   "note": "False: the fields of all dates change, and TZ is removed. The instants do not change."
  },
  {
   "property": "C192",
   "status": "partial",
   "theorems": [
    "Verif.DateFormat.C192_kept_partial",
    "Verif.DateFormat.C192_shared_wrong"
   ],
   "note": "False: there is one zone object for all names. Formats keep a copy."
  },
  {
   "property": "C193",
   "status": "partial",
   "theorems": [
    "Verif.TokenQueue.C193_fifo_partial",
    "Verif.TokenQueue.C193_fifo_wrong"
   ],
   "note": "False after an enqueue_bulk that failed: the restored count of used slots forgets blocks that stay linked. Proved for all histories without such a failure."
  },
  {
   "property": "C194",
   "status": "partial",
   "theorems": [
    "Verif.TokenQueue.C194_whole_partial",
    "Verif.TokenQueue.C194_exact_partial",
    "Verif.TokenQueue.C194_exact_wrong"
   ],
   "note": "False after an enqueue_bulk that failed; proved for all other histories."
  },
  {
   "property": "C195",
   "status": "partial",
   "theorems": [
    "Verif.TokenQueue.C195_alone_partial",
    "Verif.TokenQueue.C195_alone_wrong"
   ],
   "note": "False after an enqueue_bulk that failed; proved for all other histories."
  },
  {
   "property": "C196",
   "status": "proved",
   "theorems": [
    "Verif.TokenQueue.C196_consumer",
    "Verif.TokenQueue.C196_enqueue",
    "Verif.TokenQueue.C196_bulk"
   ],
   "note": "Steps are accesses to shared memory."
  },
  {
   "property": "C197",
   "status": "partial",
   "theorems": [
    "Verif.TokenQueue.C197_safe_partial",
    "Verif.TokenQueue.C197_safe_wrong"
   ],
   "note": "False after an enqueue_bulk that failed; proved for all other histories."
  },
  {
   "property": "C198",
   "status": "proved",
   "theorems": [
    "Verif.TokenQueue.C198_succeed",
    "Verif.TokenQueue.C198_all"
   ],
   "note": ""
  },
  {
   "property": "C199",
   "status": "proved",
   "theorems": [
    "Verif.Format.C199_text",
    "Verif.Format.C199_escape"
   ],
   "note": "Texts without NUL."
  },
  {
   "property": "C200",
   "status": "partial",
   "theorems": [
    "Verif.Format.C200_format_partial",
    "Verif.Format.C200_full_wrong",
    "Verif.Format.C200_over_wrong"
   ],
   "note": "False for numbers whose text has 128 characters or more and for texts of exactly 128; floating point numbers and the flag # are not described."
  },
  {
   "property": "C201",
   "status": "partial",
   "theorems": [
    "Verif.Format.C201_missing_partial",
    "Verif.Format.C201_enough",
    "Verif.Format.C201_surplus",
    "Verif.Format.C201_exception_wrong"
   ],
   "note": "False: an InterruptedException is thrown instead of the documented IllegalArgumentException."
  },
  {
   "property": "C202",
   "status": "partial",
   "theorems": [
    "Verif.Format.C202_decimal",
    "Verif.Format.C202_bits",
    "Verif.Format.C202_zeros_partial",
    "Verif.Format.C202_long_wrong",
    "Verif.Format.C202_width_wrong"
   ],
   "note": "False for widths of 128 and more; %d for a long is undefined."
  },
  {
   "property": "C203",
   "status": "partial",
   "theorems": [
    "Verif.Format.C203_text_partial",
    "Verif.Format.C203_full_wrong",
    "Verif.Format.C203_nul_wrong"
   ],
   "note": "False for texts of exactly 128 characters and for texts with NUL."
  },
  {
   "property": "C204",
   "status": "partial",
   "theorems": [
    "Verif.Format.C204_bool_partial",
    "Verif.Format.C204_width_wrong",
    "Verif.Format.C204_other_wrong"
   ],
   "note": "False: with a width or a flag nothing is printed."
  },
  {
   "property": "C205",
   "status": "proved",
   "theorems": [
    "Verif.LinkedQueue.C205_accounted",
    "Verif.LinkedQueue.C205_number"
   ],
   "note": "The destructor is modelled after any concurrent history of add, poll, size and isEmpty; bulk calls and producer tokens are not part of this model."
  },
  {
   "property": "C206",
   "status": "proved",
   "theorems": [
    "Verif.LinkedQueue.C206_released"
   ],
   "note": "Blocks and elements; the block index, producers and tables are not accounted for."
  },
  {
   "property": "C207",
   "status": "partial",
   "theorems": [
    "Verif.TokenQueue.C207_elements_partial",
    "Verif.TokenQueue.C207_elements_wrong"
   ],
   "note": "False after a try_enqueue_bulk that failed: it may have written over the oldest entry of the block index, the destructor then takes the wrong block for the one that is half empty and destroys an element again. Proved for histories without such a failure."
  },
  {
   "property": "C208",
   "status": "proved",
   "theorems": [
    "Verif.TokenQueue.C208_blocks"
   ],
   "note": "Blocks; the headers of the block index are not accounted for."
  },
  {
   "property": "C209",
   "status": "partial",
   "theorems": [
    "Verif.StringBuffer.Sync.C209_linearizable_partial",
    "Verif.StringBuffer.Sync.C209_safe",
    "Verif.StringBuffer.Sync.C209_length_wrong",
    "Verif.StringBuffer.Sync.C209_ensureCapacity_wrong",
    "Verif.StringBuffer.Sync.C209_appendBuffer_wrong",
    "Verif.StringBuffer.Sync.C209_assign_wrong",
    "Verif.StringBuffer.Sync.C209_assign_torn_wrong",
    "Verif.StringBuffer.Sync.C209_assign_alone_partial",
    "Verif.StringBuffer.Sync.C209_assign_self"
   ],
   "note": "False for length, ensureCapacity, append(other) and assignment, which take no mutex or only one; an assignment can write behind its new block or give a text the other buffer never had, and is a copy when no other thread runs; proved for calls of all methods that take the mutex and touch no other buffer."
  },
  {
   "property": "C210",
   "status": "partial",
   "theorems": [
    "Verif.StringBuffer.Sync.C210_race_free_partial",
    "Verif.StringBuffer.Sync.C210_race_wrong",
    "Verif.StringBuffer.Sync.C210_assign_wrong"
   ],
   "note": "False for length, ensureCapacity, getValue, append(other) and assignment from a shared buffer; proved for the other methods."
  },
  {
   "property": "C211",
   "status": "partial",
   "theorems": [
    "Verif.StringBuffer.Sync.C211_holder_partial",
    "Verif.StringBuffer.Sync.C211_no_deadlock_partial",
    "Verif.StringBuffer.Sync.C211_self_wrong",
    "Verif.StringBuffer.Sync.C211_cross_wrong",
    "Verif.StringBuffer.Sync.C211_insert_wrong"
   ],
   "note": "False for append and insert of a part of a buffer: they hold one mutex and wait for the other. Proved for calls that touch one buffer."
  },
  {
   "property": "C212",
   "status": "proved",
   "theorems": [
    "Verif.StringBuffer.Sync.C212_appends"
   ],
   "note": "Appending texts (append of a String or of characters), which all take the mutex."
  },
  {
   "property": "C213",
   "status": "partial",
   "theorems": [
    "Verif.UuidClock.C213_distinct_partial",
    "Verif.UuidClock.C213_threads_wrong",
    "Verif.UuidClock.C213_unopened_wrong"
   ],
   "note": "False for two threads of one process: the lock of the file does not exclude them and the variables are shared. False if the file cannot be opened, which timeUUID ignores. Proved for any number of processes with one calling thread each, with kills at any step, if the file can be opened and the clock shows no microsecond to ten readings and is set back less than 2^14 times."
  },
  {
   "property": "C214",
   "status": "proved",
   "theorems": [
    "Verif.UuidClock.C214_holder",
    "Verif.UuidClock.C214_go"
   ],
   "note": "For any threads, kills and failures of open and ftruncate; that flock itself fails is not modelled."
  },
  {
   "property": "C215",
   "status": "partial",
   "theorems": [
    "Verif.UuidClock.C215_steps_partial",
    "Verif.UuidClock.C215_stuck_wrong"
   ],
   "note": "False for a clock that stands still: after eleven calls in one microsecond the next call reads the clock forever, with the file locked. Proved, with the bound of twelve steps, under the conditions of C213."
  },
  {
   "property": "C216",
   "status": "partial",
   "theorems": [
    "Verif.UuidClock.C216_order_partial"
   ],
   "note": "Proved under the conditions of C213; without them it fails for the reasons of C213."
  },
  {
   "property": "C217",
   "status": "partial",
   "theorems": [
    "Verif.CaseText.C217_converts_partial",
    "Verif.CaseText.C217_ascii",
    "Verif.CaseText.C217_nul_wrong",
    "Verif.CaseText.C217_illformed_wrong",
    "Verif.CaseText.C217_tail_wrong"
   ],
   "note": "False for texts with NUL (cut), for texts that are not UTF-8 (the result is empty) and for texts that end inside a character (the piece is lost); proved for all others."
  },
  {
   "property": "C218",
   "status": "proved",
   "theorems": [
    "Verif.CaseText.C218_twice"
   ],
   "note": "For every byte string, under the laws of the table of letters: idempotent, keeps to Unicode, makes neither NUL nor a surrogate of another character."
  },
  {
   "property": "C219",
   "status": "partial",
   "theorems": [
    "Verif.CaseText.C219_boolean_partial",
    "Verif.CaseText.C219_encoding_partial",
    "Verif.CaseText.C219_tail_wrong"
   ],
   "note": "False for \"true\" or \"UTF-8\" followed by a piece of a character or, for encoding names, by NUL and anything; proved for well-formed UTF-8 without NUL."
  },
  {
   "property": "C220",
   "status": "partial",
   "theorems": [
    "Verif.FreeList.C220_some_call_ends",
    "Verif.FreeList.C220_each_call_wrong"
   ],
   "note": "Lock-free: among k threads some call ends within (k+1)(3k+1)(2k+1)(14k+1) steps of all of them. The bound for a single call is false: a call that takes a block can be kept going for ever by another thread. Sequentially consistent memory."
  },
  {
   "property": "C221",
   "status": "partial",
   "theorems": [
    "Verif.Weak.C221_seen",
    "Verif.Weak.C221_read",
    "Verif.WeakMany.C226_seen",
    "Verif.WeakMany.C226_read"
   ],
   "note": "For one adding thread (C221) and any number of adding threads (C226) under the C++11 memory model; every index has its own place, which is so in the code until a block is used a second time (C225_fresh_partial, C225_right_partial); then there are races (C225)."
  },
  {
   "property": "C222",
   "status": "partial",
   "theorems": [
    "Verif.Weak.C222_once",
    "Verif.Weak.C222_first",
    "Verif.WeakMany.C226_once",
    "Verif.WeakMany.C226_first"
   ],
   "note": "For one adding thread (C222) and any number of adding threads (C226) under the C++11 memory model; without reuse of blocks."
  },
  {
   "property": "C223",
   "status": "partial",
   "theorems": [
    "Verif.Weak.C223_no_race",
    "Verif.WeakMany.C226_no_race"
   ],
   "note": "For one adding thread (C223) and any number of adding threads (C226) under the C++11 memory model; without reuse of blocks, which does race (C225; C225_fresh_partial: not before)."
  },
  {
   "property": "C224",
   "status": "partial",
   "theorems": [
    "Verif.Weak.C224_finds_partial",
    "Verif.Weak.C224_finds_wrong"
   ],
   "note": "False as stated: dequeueOvercommit is read relaxed, so a poll may miss the failure of an earlier poll and come back empty. Proved if the failures of earlier polls happened before as well."
  },
  {
   "property": "C225",
   "status": "partial",
   "theorems": [
    "Verif.WeakReuse.C225_reuse_wrong",
    "Verif.WeakReuse.C225_fresh_partial",
    "Verif.WeakReuse.C225_right_partial",
    "Verif.WeakReuse.C225_once_partial"
   ],
   "note": "False: set_empty counts with memory_order_release only, so the thread that puts a block on the free list does not synchronise with the other threads that took its elements (shown by a run of three threads, 193 elements and one emptied block, with the memory orders of the code). True (fresh, right, once): while fewer than 192 elements were added, or as long as no block was emptied, there is no race and every element is taken at most once and is the one that was added; the 193rd element with one block emptied is the counterexample, so neither condition can be relaxed by one block."
  },
  {
   "property": "C226",
   "status": "proved",
   "theorems": [
    "Verif.WeakMany.C226_seen",
    "Verif.WeakMany.C226_read",
    "Verif.WeakMany.C226_once",
    "Verif.WeakMany.C226_first",
    "Verif.WeakMany.C226_no_race"
   ],
   "note": "Each producer, seen alone, is simulated by the machine of C221-C223, to which the other producers are other locations and other activity of the threads."
  },
  {
   "property": "C227",
   "status": "partial",
   "theorems": [
    "Verif.WeakLock.C227_size_wrong",
    "Verif.WeakLock.C227_race_free_partial"
   ],
   "note": "False: size and isEmpty read the plain counters of all locks without taking them (C227_size_wrong). Proved for schedules without these two."
  },
  {
   "property": "C228",
   "status": "proved",
   "theorems": [
    "Verif.WeakLock.C228_exclusive",
    "Verif.WeakLock.C228_power",
    "Verif.WeakLock.C228_known",
    "Verif.WeakLock.C228_all_known",
    "Verif.WeakLock.C228_kept",
    "Verif.WeakLock.C228_handover"
   ],
   "note": "For schedules without size and isEmpty, whose race makes the behaviour of a program undefined (C227)."
  },
  {
   "property": "C229",
   "status": "partial",
   "theorems": [
    "Verif.Remainder.C229_half_wrong",
    "Verif.Remainder.C229_size_wrong",
    "Verif.Remainder.C229_large_wrong",
    "Verif.Remainder.C229_infinite_wrong",
    "Verif.Remainder.C229_sign_wrong",
    "Verif.Remainder.C229_nan_partial",
    "Verif.Remainder.C229_remainder_partial",
    "Verif.Remainder.C229_whole_partial"
   ],
   "note": "False: halves are rounded away from zero, rounding errors of large quotients make the result wrong or larger than the divisor, an infinite divisor gives NaN, and zeros are always positive. Proved: the NaN cases, and all values that are whole multiples below 2^52 of one power of two, except halves above even numbers and zero remainders of negative values."
  },
  {
   "property": "C230",
   "status": "proved",
   "theorems": [
    "Verif.WeakSema.C230_matched",
    "Verif.WeakSema.C230_common",
    "Verif.WeakSema.C230_bound",
    "Verif.WeakSema.C230_record",
    "Verif.WeakSema.C230_fast",
    "Verif.WeakSema.C230_kept",
    "Verif.WeakSema.C230_handover",
    "Verif.WeakSema.C230_returned"
   ],
   "note": ""
  },
  {
   "property": "C231",
   "status": "partial",
   "theorems": [
    "Verif.RandBytes.C231_memory_wrong",
    "Verif.RandBytes.C231_device_wrong",
    "Verif.RandBytes.C231_time_wrong",
    "Verif.RandBytes.C231_pid_wrong",
    "Verif.RandBytes.C231_bytes_partial",
    "Verif.RandBytes.C231_independent_partial",
    "Verif.RandBytes.C231_different_partial",
    "Verif.RandBytes.C231_every_partial",
    "Verif.RandBytes.C231_ends_partial"
   ],
   "note": "Refuted: without a device, or with one that fails 18 times in a row, the result is what was in memory before mixed with numbers of rand, whose seed may be the same at different times; the shift of a process number of 32768 or more overflows (undefined). Proved: all of the claim but the last sentence, for process numbers below 32768 and a device that delivers; the bound on the calls for any device."
  }
 ]
}