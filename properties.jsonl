{"id": "C01", "title": "bit_mask selects exactly the closed bit range", "statement": "For every unsigned word type of width W and every 0 <= lsb <= msb < W, both forms of bit_mask<T>(msb, lsb) return the word whose bit i is 1 iff lsb <= i <= msb; no shift in the computation is undefined.", "quantifier": "every word width, every (lsb, msb) pair and every bit position", "why_tests_cant": "widths x pairs x positions grow cubically and the msb = W-1 edge is a separate code path (shift by the full width); tests sample a few literals", "anchors": ["include/stdx/bit.hpp: detail::mask_bits_t, detail::bitmask_subtract, bit_mask"]}
{"id": "C02", "title": "bit_mask over arrays selects the closed bit range across word boundaries", "statement": "For every array of k words of width W and 0 <= lsb <= msb < k*W, bit_mask<array>(msb, lsb) has bit (j*W+i) of the little-endian word sequence set iff lsb <= j*W+i <= msb.", "quantifier": "every word width, array length, (lsb, msb) pair and bit position", "why_tests_cant": "array length is unbounded and boundaries that fall on word edges take different paths", "anchors": ["include/stdx/bit.hpp: detail::mask_bits_t<std::array>, detail::bitmask_subtract"]}
{"id": "C03", "title": "bit_pack and bit_unpack are mutually inverse", "statement": "For each of the six supported shapes, bit_pack(bit_unpack(v)) = v and bit_unpack(bit_pack(parts)) = parts; arguments are ordered from most to least significant, so the packed number is the base-2^w numeral of the parts. The result does not depend on the endianness of the platform.", "quantifier": "every value of the packed and unpacked types, both endiannesses", "why_tests_cant": "the value space is up to 2^64 and the code goes through byte reversal and bit_cast, so a wrong order can agree on symmetric samples", "anchors": ["include/stdx/bit.hpp: bit_pack, bit_unpack, to_be, from_be"]}
{"id": "C04", "title": "byte order conversions store the requested order", "statement": "byteswap is an involution that reverses the bytes; to_be(v) stored to memory puts the most significant byte first and to_le(v) the least significant first, on either native endianness; from_x(to_x(v)) = v.", "quantifier": "every byte count, every value, both native endiannesses", "why_tests_cant": "a test runs on one endianness only", "anchors": ["include/stdx/bit.hpp: byteswap, to_le, from_le, to_be, from_be"]}
{"id": "C05", "title": "bit_destructure partitions the bits of a value", "statement": "For any increasing list of split points below the width, bit_destructure<s1,...,sk>(v) yields k+1 fields; field i equals bits [s_i, s_{i+1}) of v, and the shifted sum of all fields is v.", "quantifier": "every width, every increasing list of split points, every value", "why_tests_cant": "the list of split points is unbounded and the implementation mutates the value while extracting", "anchors": ["include/stdx/bit.hpp: bit_destructure, detail::shift_extract"]}
{"id": "C06", "title": "rotations move every bit by the same distance modulo the width", "statement": "rotl(v, s) puts bit i of v at position (i+s) mod W for every non-negative or negative s; rotr(v,s) = rotl(v,-s); rotr(rotl(v,s),s) = v.", "quantifier": "every width, value and shift amount, including negative and larger than the width", "why_tests_cant": "shift amounts at and beyond the width are undefined for the raw C++ shifts the implementation uses; only a few amounts can be sampled", "anchors": ["include/stdx/bit.hpp: detail::rotl, detail::rotr, rotl, rotr"]}
{"id": "C07", "title": "bit counting and power-of-two rounding agree with arithmetic", "statement": "popcount counts the 1 bits, countr_zero/countl_zero count the zeros below the lowest/above the highest 1 (W for zero), bit_width(v) is the least n with v < 2^n, has_single_bit(v) iff v is a power of two, bit_floor(v) is the largest power of two <= v (0 for 0), bit_ceil(v) the least power of two >= v whenever it is representable.", "quantifier": "every width and value", "why_tests_cant": "2^64 values per function; errors concentrate at the top bit and at widths larger than int", "anchors": ["include/stdx/bit.hpp: popcount, countl_zero, countr_zero, bit_width, bit_ceil, bit_floor, has_single_bit"]}
{"id": "C08", "title": "smallest_uint picks the least standard width that fits", "statement": "For every bit count n <= 64 smallest_uint<n> has width w in {8,16,32,64} with n <= w and no smaller such w; every value below 2^n round-trips through it.", "quantifier": "every bit count and value", "why_tests_cant": "the quantifier is over template arguments, each of which is a separate instantiation", "anchors": ["include/stdx/bit.hpp: smallest_uint, smallest_uint_t"]}
{"id": "C09", "title": "a bitset behaves as a subset of {0..N-1} under every history of operations", "statement": "Start from any constructor and apply any finite sequence of set/reset/flip (single bit, range, all), |=, &=, ^=, -, ~ , <<=, >>= with in-range arguments: operator[](i) for i < N answers exactly as a mathematical subset of {0,...,N-1} subject to the same operations.", "quantifier": "every capacity N, storage word width, constructor and operation history, and every index", "why_tests_cant": "histories are unbounded; bits stored above N survive some operations and only become visible after particular later ones", "anchors": ["include/stdx/bitset.hpp: bitset::set, reset, flip, operator~, operator<<=, operator>>=, operator[]"]}
{"id": "C10", "title": "bitset equality and counts depend only on the bits below N", "statement": "a == b iff a[i] = b[i] for all i < N; count() is the number of i < N with a[i]; any/none/all/empty agree with it; they give the same answers for any two bitsets that agree below N, however they were produced.", "quantifier": "every capacity, storage width and pair of contents including stored bits above N", "why_tests_cant": "stored bits above N are only produced by some histories; the last-word masking has a special case when N is a multiple of the word width", "anchors": ["include/stdx/bitset.hpp: operator==, count, all, any, none, lastmask, highbits"]}
{"id": "C11", "title": "bitset for_each visits the selected bits once each in ascending order", "statement": "for_each(f, bs) calls f exactly with the set positions below N in strictly increasing order; for_each<unset_bit>(f, bs) with the unset positions below N in increasing order; nothing else is visited.", "quantifier": "every capacity, storage width and contents", "why_tests_cant": "contents space is 2^N with N unbounded; the loop peels bits across words with a mask on the last word", "anchors": ["include/stdx/bitset.hpp: for_each, set_bit, unset_bit"]}
{"id": "C12", "title": "bitset transform_reduce folds exactly the selected bits below N", "statement": "transform_reduce(t, r, init, bs) equals the left fold of r over t(i) for the positions i < N with bs[i], in ascending order, for every bitset reachable through the API.", "quantifier": "every capacity, storage width, functions and reachable contents", "why_tests_cant": "the loop does not mask the last word, which only matters for contents produced by complementing or setting all", "anchors": ["include/stdx/bitset.hpp: bitset::transform_reduce"]}
{"id": "C13", "title": "lowest_unset returns the least clear position", "statement": "lowest_unset() returns the least i < N with bs[i] = 0 if there is one, and N otherwise, so equal bitsets give equal answers.", "quantifier": "every capacity, storage width and reachable contents", "why_tests_cant": "answers for full bitsets depend on stored bits above N, i.e. on the history", "anchors": ["include/stdx/bitset.hpp: bitset::lowest_unset"]}
{"id": "C14", "title": "bitset shifts translate the set of positions", "statement": "(bs << n)[i] = i >= n and bs[i-n]; (bs >> n)[i] = i+n < N and bs[i+n], for every n including 0, multiples of the storage width, and n >= N.", "quantifier": "every capacity, storage width, contents and shift distance", "why_tests_cant": "word-crossing shifts with zero remainder, and distances past the storage, are separate undefined-behaviour hazards", "anchors": ["include/stdx/bitset.hpp: operator<<=, operator>>="]}
{"id": "C15", "title": "bitset range set/reset change exactly the closed range", "statement": "set(lsb, msb, v) makes every position in [lsb, msb] equal v and leaves all other positions unchanged; set(lsb, len, v) does the same for [lsb, lsb+len) including len = 0.", "quantifier": "every capacity, storage width, contents and valid range", "why_tests_cant": "ranges may start and end in the same word or many words apart; length 0 underflows the msb", "anchors": ["include/stdx/bitset.hpp: set(lsb_t, msb_t), set(lsb_t, length_t), reset"]}
{"id": "C16", "title": "bitset conversions round-trip", "statement": "bitset<N>(v).to<T>() = v mod 2^N; place_bits sets exactly the listed positions; a string of length L built from digits sets bit i iff character L-1-i is the one-character, and only the first N characters matter.", "quantifier": "every capacity, storage width, value, position list and string", "why_tests_cant": "unbounded strings and position lists, and multi-word reassembly", "anchors": ["include/stdx/bitset.hpp: bitset constructors, to, to_natural"]}
{"id": "C17", "title": "type_bitset addresses one independent bit per distinct type", "statement": "In type_bitset<Ts...>, set<U>/reset<U>/flip<U> change exactly what operator[](type_identity<U>) reports for U and nothing reported for any other type; the list constructor sets exactly the listed types.", "quantifier": "every list of types (with or without repetition) and every type in it", "why_tests_cant": "quantifies over type lists; each list is a separate instantiation", "anchors": ["include/stdx/bitset.hpp: type_bitset"]}
{"id": "C18", "title": "intrusive_list behaves as a sequence of nodes under every history", "statement": "Under any sequence of push_front, push_back, insert(it), pop_front, pop_back, remove, clear that respects the node preconditions, iteration from begin to end yields exactly the nodes of the abstract sequence, front/back are its ends, empty iff it is empty, and no operation has undefined behaviour. Following prev from the last node yields the reverse.", "quantifier": "every operation history over any number of nodes, both node policies", "why_tests_cant": "histories are unbounded; pointer invariants (head/tail/prev/next) can be broken by a state no test visits", "anchors": ["include/stdx/intrusive_list.hpp: intrusive_list", "include/stdx/detail/list_common.hpp: node_policy"]}
{"id": "C19", "title": "intrusive lists do not disturb nodes they do not own", "statement": "An operation on one list only writes links of nodes that are in that list or passed to the operation; two lists over disjoint nodes therefore evolve independently under any interleaving of operations.", "quantifier": "every pair of lists, every interleaving of their operations", "why_tests_cant": "framing is a statement about all other memory", "anchors": ["include/stdx/intrusive_list.hpp", "include/stdx/intrusive_forward_list.hpp"]}
{"id": "C20", "title": "with checked nodes, removed nodes are reusable", "statement": "With the checked policy, a node that leaves a list through pop_front, pop_back, remove or clear has null links, so pushing it again never panics; consequently any history in which a node is pushed only when it is in no list never panics.", "quantifier": "every operation history respecting membership", "why_tests_cant": "requires an invariant over all nodes that ever left the list", "anchors": ["include/stdx/detail/list_common.hpp: checked::on_pop, checked::on_clear, checked::valid_for_push"]}
{"id": "C21", "title": "checked policy reports pushing a node that is already linked", "statement": "With the checked policy, pushing or inserting a node that is currently a member of a list calls the panic handler.", "quantifier": "every reachable list state and every member node", "why_tests_cant": "whether a member is detectable depends on its position and on the length of the list", "anchors": ["include/stdx/detail/list_common.hpp: checked::valid_for_push"]}
{"id": "C22", "title": "insert and remove edit the sequence at one point", "statement": "insert(it, n) places n immediately before the element at it (at the end when it = end()); remove(n) deletes exactly n and keeps the order of the others.", "quantifier": "every list, every position, both policies and every prior content of n's links that the policy admits", "why_tests_cant": "position and list length are unbounded and stale links depend on history", "anchors": ["include/stdx/intrusive_list.hpp: unchecked_insert, remove"]}
{"id": "C23", "title": "intrusive_forward_list behaves as a sequence of nodes under every history", "statement": "Under any sequence of push_front, push_back, pop_front, clear respecting node preconditions, iteration yields exactly the abstract sequence, front/back are its ends, and no operation has undefined behaviour.", "quantifier": "every operation history, both node policies", "why_tests_cant": "unbounded histories; the tail pointer must be reset at the right moments", "anchors": ["include/stdx/intrusive_forward_list.hpp"]}
{"id": "C24", "title": "cx_queue is FIFO with bounded capacity", "statement": "Under any history of push/pop/clear that never pushes when full nor pops when empty, pop returns elements in the order pushed, front/back are the oldest/newest, size is pushes minus pops since the last clear, and indexes never leave the storage.", "quantifier": "every capacity, element type and operation history", "why_tests_cant": "wrap-around interacts with arbitrarily long histories", "anchors": ["include/stdx/cx_queue.hpp: cx_queue::push, pop, front, back, clear, size"]}
{"id": "C25", "title": "cx_queue over/underflow is always reported by the safe policy", "statement": "With the safe policy, push on a full queue and pop/front/back on an empty queue call panic before touching the storage, and no other operation calls panic; if the handler does not return, the queue is unchanged and no undefined behaviour occurs.", "quantifier": "every capacity, reachable state and history", "why_tests_cant": "needs all reachable states", "anchors": ["include/stdx/cx_queue.hpp: safe_overflow_policy", "include/stdx/panic.hpp"]}
{"id": "C26", "title": "cx_vector behaves as a bounded sequence", "statement": "Under any history of push_back, pop_back, clear, element assignment and resize_and_overwrite within capacity, the visible elements and size are those of the abstract list; push_back on full, pop_back/back on empty, front with capacity zero, access at or past the capacity, and a resize callback that writes outside the capacity are the only undefined cases.", "quantifier": "every capacity and history", "why_tests_cant": "unbounded histories; stale elements remain in the storage above size", "anchors": ["include/stdx/cx_vector.hpp"]}
{"id": "C27", "title": "cx_vector equality is sequence equality", "statement": "v == w iff both have the same size and equal elements position by position; stale storage above the size is never consulted.", "quantifier": "every pair of vectors and every stale content", "why_tests_cant": "stale contents depend on history", "anchors": ["include/stdx/cx_vector.hpp: operator=="]}
{"id": "C28", "title": "cx_map behaves as a finite partial function", "statement": "Under any history of insert_or_assign/put/erase/pop_back/clear within capacity starting from the empty map, contains(k), get(k) and size agree with a partial function; insert_or_assign returns true iff the key was absent; erase returns the number of keys removed (0 or 1); pop_back removes one present pair.", "quantifier": "every capacity, key/value type and history", "why_tests_cant": "erase moves the last element into the hole, so layout depends on the whole history", "anchors": ["include/stdx/cx_map.hpp"]}
{"id": "C29", "title": "cx_set behaves as a finite set", "statement": "Under any history of insert/erase/merge/pop_back/clear within capacity starting from the empty set, contains agrees with a mathematical set, size is its cardinality, insert returns true iff the element was absent, merge gives the union.", "quantifier": "every capacity, element type and history", "why_tests_cant": "layout depends on history; merge iterates another set", "anchors": ["include/stdx/cx_set.hpp"]}
{"id": "C30", "title": "cx_set and cx_map built from a list of initial elements are sets and maps", "statement": "A cx_set/cx_map constructed from a list of initial elements contains exactly those elements, its size is the number of distinct ones, and after erase(k) contains(k) is false.", "quantifier": "every list of initial elements, including with repetitions", "why_tests_cant": "repetitions in the initializer are a corner tests rarely include", "anchors": ["include/stdx/cx_set.hpp: cx_set(Ts const&...)", "include/stdx/cx_map.hpp: cx_map(Vs const&...)"]}
{"id": "C31", "title": "cx_multimap behaves as a relation with a key set", "statement": "Under any history of insert(k), insert(k,v), erase(k), erase(k,v), clear within capacity, contains(k), contains(k,v), get(k) and size agree with the abstract map from keys to finite value sets; erase(k,v) reports the number of pairs removed and removes the key only if it removed its last value.", "quantifier": "every capacity and history", "why_tests_cant": "nested containers and history-dependent layout", "anchors": ["include/stdx/cx_multimap.hpp"]}
{"id": "C32", "title": "rollover_t arithmetic is arithmetic modulo 2^W", "statement": "+, -, *, ++, --, and compound forms on rollover_t over a W-bit unsigned type give the result modulo 2^W with no undefined behaviour; / and % are exact for non-zero divisors; x + y - y = x.", "quantifier": "every width and operand pair", "why_tests_cant": "integer promotion makes narrow types compute in signed int, so undefined behaviour hides at large operands", "anchors": ["include/stdx/rollover.hpp: rollover_t operators"]}
{"id": "C33", "title": "cmp_less orders any half-range window", "statement": "If all values lie within a window of length at most half the range starting anywhere (also across the wrap), cmp_less restricted to them is the strict total order by distance from the window start: irreflexive, asymmetric, transitive, total.", "quantifier": "every width, window start, window length and values", "why_tests_cant": "the wrap point may be anywhere in the window; the set of windows is as large as the type", "anchors": ["include/stdx/rollover.hpp: cmp_less"]}
{"id": "C34", "title": "cmp_less characterisation", "statement": "cmp_less(a,b) iff (b - a) mod 2^W is in [1, 2^(W-1)]; so for every a exactly 2^(W-1) values are greater and exactly 2^(W-1) are smaller, and both cmp_less(a,b) and cmp_less(b,a) hold exactly at distance 2^(W-1).", "quantifier": "every width and pair of values", "why_tests_cant": "counts over the full type", "anchors": ["include/stdx/rollover.hpp: cmp_less"]}
{"id": "C35", "title": "byterator writes and reads are inverse and local", "statement": "Writing any sequence of values of any sizes through a byterator and then reading the same sizes from the start position returns the same values; the position advances by exactly the sizes; peek does not move; bytes outside the written range are unchanged; an access past the end of the underlying storage is the only undefined case.", "quantifier": "every memory content, start position, and sequence of sizes and values", "why_tests_cant": "unbounded sequences and unaligned positions", "anchors": ["include/stdx/byterator.hpp: peek, read, write, advance"]}
{"id": "C36", "title": "advance_to_alignment moves to the next aligned address", "statement": "advance_to_alignment<V>() moves to the least address >= the current one that is a multiple of the alignment of V and does nothing when already aligned.", "quantifier": "every address and power-of-two size", "why_tests_cant": "address space", "anchors": ["include/stdx/byterator.hpp: advance_to_alignment"]}
{"id": "C37", "title": "byterator is a lawful random access iterator", "statement": "(i + n) - i = n, i + n + m = i + (n + m), ++/-- and +=/-= agree with +/-, i[n] = *(i+n), < is a strict total order consistent with difference, and comparison with an iterator of the underlying type compares addresses.", "quantifier": "every position and offsets", "why_tests_cant": "algebraic laws over all integers", "anchors": ["include/stdx/byterator.hpp"]}
{"id": "C38", "title": "concurrent atomic_bitset updates are never lost", "statement": "For any number of threads each performing any sequence of set/reset/flip of bits or ranges, for every interleaving, the final value of each bit is determined by the order of the operations that touch it; in particular if the threads touch disjoint bits the final value is independent of the schedule, and every returned previous value is the value just before that operation in the total order.", "quantifier": "every number of threads, programs and schedules", "why_tests_cant": "schedules are not controllable in a test", "anchors": ["include/stdx/atomic_bitset.hpp: set, reset, flip, load, store"]}
{"id": "C39", "title": "atomic_bitset set acts as a test-and-set", "statement": "If any number of threads execute set(i) on a clear bit i and nobody resets it, exactly one of the returned previous values has bit i clear: the first in the schedule.", "quantifier": "every number of threads and every schedule", "why_tests_cant": "schedules", "anchors": ["include/stdx/atomic_bitset.hpp: set"]}
{"id": "C40", "title": "atomic counters hand out distinct tickets", "statement": "For any number of threads doing fetch_add(1)/++ on an atomic unsigned of width W, fewer than 2^W times in total, all returned previous values are pairwise distinct and the final value is the initial value plus the number of increments mod 2^W; += and post-increment agree with fetch_add.", "quantifier": "every schedule, thread count, initial value", "why_tests_cant": "schedules", "anchors": ["include/stdx/atomic.hpp: fetch_add, fetch_sub, operator++, operator--, operator+="]}
{"id": "C41", "title": "atomic_bitset only exposes bits below N", "statement": "Whatever operations have been applied, load/to/operator[]/count/all/any/none and returned previous values agree with the subset-of-{0..N-1} specification and never depend on stored bits above N.", "quantifier": "every capacity, storage width and history", "why_tests_cant": "some operations store bits above N", "anchors": ["include/stdx/atomic_bitset.hpp: salient_value, mask, to, count, all, any, none"]}
{"id": "C42", "title": "optional implements std::optional on values other than the tombstone", "statement": "For values different from the tombstone: construction, emplace, assignment and reset give the expected has_value; transform/and_then/or_else/value_or satisfy the functor and monad laws as long as no function returns the tombstone.", "quantifier": "every value type with a tombstone, every function and history", "why_tests_cant": "laws quantify over functions", "anchors": ["include/stdx/optional.hpp: optional"]}
{"id": "C43", "title": "optional comparison is a total order with nullopt least", "statement": "If the value type has a strict total order then so does optional, nullopt is less than every engaged value, and <=, >, >=, == are consistent with <.", "quantifier": "every value type and pair of optionals", "why_tests_cant": "tombstone may sit anywhere in the value order", "anchors": ["include/stdx/optional.hpp: operator==, operator<, operator<=, operator>, operator>="]}
{"id": "C44", "title": "n-ary optional transform is engaged iff all arguments are", "statement": "transform(f, o1..on) returns f applied to the contained values if all are engaged and a disengaged optional otherwise, and f is called at most once and only when all are engaged.", "quantifier": "every arity, function and arguments", "why_tests_cant": "arity is unbounded", "anchors": ["include/stdx/optional.hpp: transform(F, Ts...)"]}
{"id": "C45", "title": "latched computes at most once", "statement": "Over any history of accesses a latched value calls its function at most once, exactly at the first access, all accesses return that first result, and has_value is true iff an access happened.", "quantifier": "every stateful function that does not itself use the object, and every access history of one thread (C110 has the others)", "why_tests_cant": "unbounded histories with a function whose result changes per call", "anchors": ["include/stdx/latched.hpp"]}
{"id": "C46", "title": "cached recomputes exactly once per reset or refresh epoch", "statement": "Over any history of accesses, reset and refresh, the number of calls equals the number of refreshes plus the number of accesses that find the value absent; an access returns the result of the most recent call; has_value false exactly after construction or reset with no later access/refresh.", "quantifier": "every stateful function that does not itself use the object, and every history of the member functions (C110 has the others)", "why_tests_cant": "unbounded histories", "anchors": ["include/stdx/cached.hpp"]}
{"id": "C47", "title": "transform, for_each and their _n forms apply the operation to corresponding elements in order", "statement": "For every number of input ranges, the operation is called once per position 0..n-1 in order with the i-th elements of all ranges; results are written in order; returned iterators are advanced exactly n; n <= 0 performs no call.", "quantifier": "every arity, length and operation", "why_tests_cant": "arity and length unbounded", "anchors": ["include/stdx/algorithm.hpp: transform, transform_n, for_each, for_each_n"]}
{"id": "C48", "title": "for_each_butlastn omits exactly the last n elements", "statement": "for_each_butlastn(first, last, n, op) calls op on the first max(0, len-n) elements in order, returns iterators advanced by that amount, and its forward-iterator and random-access versions agree.", "quantifier": "every length and n", "why_tests_cant": "two different algorithms selected by iterator category must agree everywhere, including n > len", "anchors": ["include/stdx/algorithm.hpp: for_each_butlastn, for_each_butlast"]}
{"id": "C49", "title": "initial_medial_final classifies each element", "statement": "The first element gets the initial operation, the last of a range of at least two gets the final one, all others the medial one, in order, nothing on an empty range.", "quantifier": "every range", "why_tests_cant": "length unbounded", "anchors": ["include/stdx/algorithm.hpp: initial_medial_final"]}
{"id": "C50", "title": "transform_reduce is the left fold of the transformed elements", "statement": "transform_reduce and transform_reduce_n equal the left fold with the reduce operation over the transformed corresponding elements; transform_reduce_n with n <= 0 returns init.", "quantifier": "every arity, length, operations and n", "why_tests_cant": "lengths unbounded, negative n", "anchors": ["include/stdx/numeric.hpp: transform_reduce, transform_reduce_n"]}
{"id": "C51", "title": "saturate_cast clamps to the target range", "statement": "saturate_cast<T>(v) returns the value of T nearest to v for every pair of integer types and value, without undefined behaviour.", "quantifier": "every pair of integer types (signedness and width) and every value", "why_tests_cant": "pairs of types times values; mixed signedness changes the type clamp is evaluated in", "anchors": ["include/stdx/numeric.hpp: saturate_cast"]}
{"id": "C52", "title": "span first/last/subspan are views of the right elements", "statement": "first(n), last(n), subspan(o, c) of a span denote exactly elements [0,n), [size-n,size), [o,o+c) of the original for static and dynamic forms, compose as sublists, and access only the original elements.", "quantifier": "every size, offset and count", "why_tests_cant": "all combinations of static/dynamic offsets and sizes", "anchors": ["include/stdx/span.hpp: first, last, subspan"]}
{"id": "C53", "title": "span conversions preserve the viewed elements and size", "statement": "Constructing a span from a container, array or other span views the same elements; a static-extent span never views more elements than the source has; as_bytes has size()*sizeof(T) bytes in order.", "quantifier": "every source kind and size", "why_tests_cant": "template argument combinations", "anchors": ["include/stdx/span.hpp: constructors, as_bytes, as_writable_bytes"]}
{"id": "C54", "title": "ct_string concatenation is string concatenation and keeps the terminator invariant", "statement": "size(a + b) = size(a) + size(b), characters are those of a then b, the stored array always ends with a NUL, + is associative with \"\" as identity; conversion to a type and back is the identity; == is character-wise equality.", "quantifier": "every pair/triple of strings", "why_tests_cant": "unbounded strings", "anchors": ["include/stdx/ct_string.hpp: ct_string, operator+, operator==, ct_string_from_type, ct_string_to_type"]}
{"id": "C55", "title": "split cuts at the first occurrence", "statement": "split<S, C>() returns (prefix before the first C, suffix after it) and (S, \"\") when C does not occur; for an occurring C the join with C gives S back and the first part contains no C.", "quantifier": "every string and character (including NUL)", "why_tests_cant": "unbounded strings; the implementation scans the terminator too", "anchors": ["include/stdx/ct_string.hpp: split"]}
{"id": "C56", "title": "ct_format consumes one argument per replacement field", "statement": "For a well-formed format string whose number of fields equals the number of arguments, the resulting string is the input with each compile-time argument's text substituted for its field and each runtime field kept verbatim, and the runtime argument tuple lists the runtime arguments in order; escaped braces and literal text are preserved in order.", "quantifier": "every format string and list of arguments of either kind", "why_tests_cant": "format strings are unbounded", "anchors": ["include/stdx/ct_format.hpp: ct_format, detail::split_specifiers, count_specifiers, find_spec, format1"]}
{"id": "C57", "title": "nested format results compose", "statement": "Formatting a format_result argument splices its string at the field and its runtime arguments at the corresponding place in the argument tuple, so formatting in two steps equals formatting in one.", "quantifier": "every nesting of format strings and arguments", "why_tests_cant": "nesting depth unbounded", "anchors": ["include/stdx/ct_format.hpp: operator+ on format_result, named_arg apply_offset"]}
{"id": "C58", "title": "freestanding integer formatting prints the numeral", "statement": "format_to for an integer with {} or {:x} writes exactly the base-10/base-16 numeral with a leading '-' for negatives, formatted_size predicts its length exactly, and parsing the numeral gives the value back, for every value including 0 and the minimum.", "quantifier": "every integer type and value", "why_tests_cant": "2^64 values; minimum value negation", "anchors": ["include/stdx/detail/fmt.hpp: format_to, formatted_size"]}
{"id": "C59", "title": "tuple folds and join", "statement": "fold_left/fold_right are the left/right folds in element order, calling the function once per element; join equals the left fold of the elements with the first as initial value and returns the supplied initial value only for an empty tuple.", "quantifier": "every tuple length and function", "why_tests_cant": "length unbounded; function need not be associative", "anchors": ["include/stdx/tuple.hpp: fold_left, fold_right, join"]}
{"id": "C60", "title": "tuple comparison is lexicographic", "statement": "== is element-wise; <=> is the lexicographic comparison of the elements; consequently < is a strict total order when each element order is, consistent with ==.", "quantifier": "every length and contents, for tuples with the same number of elements (C126 has the others)", "why_tests_cant": "length unbounded", "anchors": ["include/stdx/tuple.hpp: operator==, operator<=>"]}
{"id": "C61", "title": "tuple_cat concatenates", "statement": "tuple_cat(t1..tn) has the elements of t1 then t2 ... then tn; cons and snoc are the one-element cases; every element appears exactly once.", "quantifier": "every number of tuples and their lengths, including empty ones", "why_tests_cant": "index tables computed at compile time for unbounded shapes", "anchors": ["include/stdx/tuple_algorithms.hpp: tuple_cat, detail::fill_inner_indices, detail::fill_outer_indices, tuple_cons, tuple_snoc"]}
{"id": "C62", "title": "filter keeps exactly the satisfying elements in order", "statement": "filter<P>(t) has exactly the elements whose type satisfies P, with their values, in the original order.", "quantifier": "every tuple and predicate", "why_tests_cant": "computed index sequence for unbounded shapes", "anchors": ["include/stdx/tuple_algorithms.hpp: filter"]}
{"id": "C63", "title": "tuple transform/for_each/enumerate zip to the shortest input", "statement": "transform(f, t1..tn) has length min of lengths and i-th element f of the i-th elements; for_each/enumerate call f once per index in order with the right index; apply over several tuples passes all elements in order.", "quantifier": "every number of tuples, lengths and functions (how a function object is passed is C104)", "why_tests_cant": "unbounded shapes", "anchors": ["include/stdx/tuple_algorithms.hpp: transform, for_each, enumerate, apply, zip_length_for"]}
{"id": "C64", "title": "all_of/any_of/none_of short-circuit and obey De Morgan", "statement": "any_of is the disjunction, all_of the conjunction, none_of the negation of any_of; the predicate is called on a prefix of the indices ending at the first deciding one.", "quantifier": "every tuples and predicates", "why_tests_cant": "unbounded shapes", "anchors": ["include/stdx/tuple_algorithms.hpp: all_of, any_of, none_of, detail"]}
{"id": "C65", "title": "chunk_by splits into maximal runs", "statement": "Concatenating the chunks gives the original tuple; every chunk is non-empty with all elements having the same key; adjacent chunks have different keys.", "quantifier": "every tuple and key function", "why_tests_cant": "index computation over unbounded shapes", "anchors": ["include/stdx/tuple_algorithms.hpp: chunk_by, detail::count_chunks, detail::create_chunks"]}
{"id": "C66", "title": "sort and gather_by group by key", "statement": "sort yields a permutation ordered by key name; gather_by yields groups that are a partition of the elements, one group per distinct key, in increasing key order, provided distinct keys have distinct names.", "quantifier": "every tuple, key function and any correct (possibly unstable) sorting algorithm", "why_tests_cant": "the sort is unstable, so the property must hold for every allowed permutation", "anchors": ["include/stdx/tuple_algorithms.hpp: sort, gather_by, detail::sorted_indices"]}
{"id": "C67", "title": "cartesian_product enumerates all combinations lexicographically", "statement": "cartesian_product(t1..tn) has product-of-lengths many elements, each combination exactly once, ordered with the last tuple varying fastest; of no tuples it is one empty tuple.", "quantifier": "every number of tuples and lengths including zero", "why_tests_cant": "unbounded shapes", "anchors": ["include/stdx/tuple_algorithms.hpp: cartesian_product_copy, cartesian_product"]}
{"id": "C68", "title": "unique and the set conversions", "statement": "unique keeps the first of each run of equal types; to_unsorted_set keeps the first occurrence of each type in order; to_sorted_set has each type once in name order.", "quantifier": "every tuple", "why_tests_cant": "unbounded shapes", "anchors": ["include/stdx/tuple_algorithms.hpp: unique, to_sorted_set, to_unsorted_set"]}
{"id": "C69", "title": "environment queries prefer the innermost binding", "statement": "A query on an extended environment returns the newest binding of the key, on appended environments the one given last, falls through to the older environment otherwise, and to the query's default only if there is no binding at all.", "quantifier": "every chain of environment extensions", "why_tests_cant": "unbounded chains", "anchors": ["include/stdx/env.hpp: env, make_env_t, extend_env_t, append_env_t"]}
{"id": "C70", "title": "call_by_need picks the documented call and loses no argument", "statement": "For each function the chosen argument block is the first in the documented search order that is callable; results come in function order followed by unused arguments in order; every argument is either used by some call or forwarded exactly once, never both.", "quantifier": "every invocability relation, number of functions and arguments", "why_tests_cant": "search over unbounded argument lists", "anchors": ["include/stdx/call_by_need.hpp: compute_call_info, call_by_need"]}
{"id": "C71", "title": "type_map lookup is a partial function with default", "statement": "Looking up a key bound once returns its value; an unbound key returns the default; reverse lookup inverts lookup when values are unique.", "quantifier": "every map and key", "why_tests_cant": "quantifies over type lists", "anchors": ["include/stdx/utility.hpp: type_map, type_lookup_t, reverse_type_lookup_t"]}
{"id": "C72", "title": "integer literals parse to the value the language gives them", "statement": "parse_literal<T>(chars) equals the C++ value of the literal (decimal, octal, hex upper/lower, binary, digit separators) modulo 2^W of T.", "quantifier": "every literal accepted by the static checks", "why_tests_cant": "unbounded digit strings", "anchors": ["include/stdx/udls.hpp: parse_literal, parser, raw_parser, maybe_add_digit"]}
{"id": "C73", "title": "sized conversions allocate exactly enough", "statement": "sized<T>{n}.in<U>() is the least number of U objects whose total size is at least n objects of T.", "quantifier": "every pair of sizes and n", "why_tests_cant": "arithmetic over all sizes", "anchors": ["include/stdx/utility.hpp: detail::size_conversion, sized"]}
{"id": "C74", "title": "is_aligned_with decides divisibility by the alignment", "statement": "is_aligned_with<T>(v) iff v is a multiple of alignof(T).", "quantifier": "every value and alignment", "why_tests_cant": "value space", "anchors": ["include/stdx/utility.hpp: is_aligned_with"]}
{"id": "C75", "title": "for_each_n_args calls with consecutive batches", "statement": "for_each_n_args<N>(f, args...) calls f on consecutive batches of N arguments in order; concatenating the batches gives the argument list.", "quantifier": "every batch size and argument count that is a multiple of it", "why_tests_cant": "unbounded argument lists", "anchors": ["include/stdx/for_each_n_args.hpp: for_each_n_args"]}
{"id": "C76", "title": "bind_front and bind_back place bound arguments", "statement": "bind_front(f, xs...)(ys...) = f(xs..., ys...) and bind_back(f, xs...)(ys...) = f(ys..., xs...); binding in stages equals binding at once.", "quantifier": "every function and argument lists", "why_tests_cant": "unbounded arities", "anchors": ["include/stdx/functional.hpp: bind_front, bind_back"]}
{"id": "C77", "title": "forward list: a node that left a list can be pushed again", "statement": "With the checked policy, in any history in which a node is pushed onto an intrusive_forward_list only while it is in no list, the panic handler is never called, and pushing any such node succeeds.", "quantifier": "every history of push_front, push_back, pop_front and clear over any number of lists and nodes, node types with and without a prev pointer", "why_tests_cant": "unbounded histories and node reuse", "anchors": ["include/stdx/intrusive_forward_list.hpp: intrusive_forward_list", "include/stdx/detail/list_common.hpp: node_policy::checked"]}
{"id": "C78", "title": "forward list: pushing a member node is detected", "statement": "With the checked policy, pushing onto an intrusive_forward_list a node that is currently a member of a list calls the panic handler.", "quantifier": "every reachable state and every member node", "why_tests_cant": "states reachable by unbounded histories", "anchors": ["include/stdx/intrusive_forward_list.hpp: push_front, push_back", "include/stdx/detail/list_common.hpp: node_policy::checked::valid_for_push"]}
{"id": "C79", "title": "the string of a format result is a format string for its arguments", "statement": "When no literal text or compile-time argument's text contains an unpaired or escaped brace, the string of ct_format's result is again a well-formed format string with exactly one field per runtime argument, in order, each keeping the specifier written for that argument (also through nested format results); in particular num_fmt_specifiers of the string is the size of the argument tuple.", "quantifier": "every format string, argument list and nesting", "why_tests_cant": "format strings and nesting are unbounded", "anchors": ["include/stdx/ct_format.hpp: ct_format, num_fmt_specifiers, format_result"]}
{"id": "C80", "title": "unit and bit literals have the written value", "statement": "n_k, n_M, n_G, n_ki, n_Mi, n_Gi equal n times 10^3, 10^6, 10^9, 2^10, 2^20, 2^30; n_lsb, n_msb and n_len carry n.", "quantifier": "every unsigned long long literal", "why_tests_cant": "value space", "anchors": ["include/stdx/udls.hpp: operator\"\"_k, _M, _G, _ki, _Mi, _Gi, _lsb, _msb, _len"]}
{"id": "C81", "title": "counting_iterator counts and satisfies the random access laws", "statement": "From a start value, successive reads give that value and its successors; ++, --, +d and -d move by the integer they say; (it + d) - d == it and (it + d) - it == d; the distance x - y is the difference of the values; order and equality are those of the values.", "quantifier": "every integer type, start value, step and sequence of reads that stays in the range of the type", "why_tests_cant": "value space of every integer type", "anchors": ["include/stdx/iterator.hpp: counting_iterator"]}
{"id": "C82", "title": "tuple access by index and by type", "statement": "get<I>(t) is the I-th element; get<T>(t) is the only element whose type, or whose image under one of the tuple's index functions, is T, and is rejected when there is none or more than one; contains_type<Tuple, T> says whether some element can be so found; apply_indices changes the ways of access only.", "quantifier": "every tuple, index function list, index and type", "why_tests_cant": "quantifies over type lists and functions on types", "anchors": ["include/stdx/tuple.hpp: tuple_impl::operator[], get, apply_indices", "include/stdx/tuple_algorithms.hpp: contains_type"]}
{"id": "C83", "title": "type names and templates", "statement": "type_as_string<T>() is the compiler's name of T; template_base<T>() is the name without template arguments; is_same_template_v<T, U> holds exactly for specialisations of one template.", "quantifier": "every type name, in the texts the supported compilers produce", "why_tests_cant": "type names are unbounded", "anchors": ["include/stdx/ct_conversions.hpp: type_as_string, template_base", "include/stdx/type_traits.hpp: is_same_template_v"]}
{"id": "C84", "title": "enumerator names", "statement": "enum_as_string<V>() is the unqualified name of the enumerator V, and the text of the cast for a value that is not an enumerator.", "quantifier": "every enumerator in every scope, and every value", "why_tests_cant": "scopes and names are unbounded", "anchors": ["include/stdx/ct_conversions.hpp: enum_as_string"]}
{"id": "C85", "title": "forward_like is std::forward_like", "statement": "forward_like<T>(u) has the constness and value category that std::forward_like<T>(u) has.", "quantifier": "every combination of qualification of T and of the argument", "why_tests_cant": "tests cover only rvalue arguments", "anchors": ["include/stdx/utility.hpp: forward_like, forward_like_t"]}
{"id": "C86", "title": "arity_v", "statement": "arity_v<F> is the number of parameters of a function with one parameter list, and for a generic function the fewest arguments it accepts.", "quantifier": "every function", "why_tests_cant": "quantifies over functions", "anchors": ["include/stdx/function_traits.hpp: arity_t, generic_arity"]}
{"id": "C87", "title": "function_traits decomposes every function type", "statement": "For a function, a pointer to one, a member function pointer or a class with one call operator, return_t is the return type, args_t the parameter types in order, nth_arg_t<N> the N-th of them (and nothing beyond the last), the decayed forms the same after decay, and obj_arg_t the class with the member function's qualification, or void.", "quantifier": "every signature, qualification and way of naming the function", "why_tests_cant": "function types are unbounded in number", "anchors": ["include/stdx/function_traits.hpp: function_traits, return_t, args_t, decayed_args_t, nth_arg_t, decayed_nth_arg_t, obj_arg_t"]}
{"id": "C88", "title": "is_specialization_of_v", "statement": "is_specialization_of_v<U, T> (and the forms for templates of types and of values) is true exactly if U is, or refers to, a class that is a specialisation of the template T.", "quantifier": "every type and every template", "why_tests_cant": "types are unbounded in number; tests name a few", "anchors": ["include/stdx/type_traits.hpp: is_specialization_of_v, is_type_specialization_of_v, is_value_specialization_of_v, is_specialization_of"]}
{"id": "C89", "title": "is_function_v, is_function_object_v, is_callable_v", "statement": "is_function_v<T> is true exactly for function types, is_function_object_v<T> exactly for types with a call operator, is_callable_v<T> for both.", "quantifier": "every type", "why_tests_cant": "types are unbounded in number", "anchors": ["include/stdx/type_traits.hpp: is_function_v, is_function_object_v, is_callable_v"]}
{"id": "C90", "title": "shrink and expand are inverse", "statement": "expand_t<shrink_t<T>> is T, expand_t leaves a type that is not shrunk alone, and different types have different shrunk types.", "quantifier": "every type, shrunk any number of times", "why_tests_cant": "types are unbounded in number", "anchors": ["include/stdx/type_traits.hpp: shrink_t, expand_t"]}
{"id": "C91", "title": "traversal of type and value lists", "statement": "template_for_each<L>(f) calls f once for each element of L in order, apply_sequence<L>(f) once with all of them; nth_t and nth_v give the element at an index. A sequence made for N has the elements 0, ..., N-1, also as a tuple.", "quantifier": "every list, every function with side effects, every index", "why_tests_cant": "lists are unbounded", "anchors": ["include/stdx/type_traits.hpp: template_for_each, apply_sequence, nth_t, nth_v", "include/stdx/utility.hpp: make_integer_sequence, make_index_sequence"]}
{"id": "C92", "title": "make_array", "statement": "make_array(ts...) holds the arguments in order, converted to their common type or the type given; make_array<N>(f) holds f<0>(), ..., f<N-1>() in order, each called once.", "quantifier": "every number of arguments, every integer type and value, every function with side effects", "why_tests_cant": "argument lists and functions are unbounded", "anchors": ["include/stdx/array.hpp: make_array"]}
{"id": "C93", "title": "as_unsigned and as_signed", "statement": "as_unsigned and as_signed keep the value modulo 2^width in the type of the same width and the other signedness, do not change a value that type has, and undo each other.", "quantifier": "every integer type and value", "why_tests_cant": "every value of every width", "anchors": ["include/stdx/utility.hpp: as_unsigned, as_signed"]}
{"id": "C94", "title": "CT_WRAP and CX_WRAP", "statement": "CT_WRAP(e) and CX_WRAP(e) keep the value of e, and make it available at compile time if and only if e is a constant expression; any other expression is passed through.", "quantifier": "every expression", "why_tests_cant": "expressions are unbounded; tests wrap literals and local variables", "anchors": ["include/stdx/utility.hpp: CT_WRAP, CX_WRAP"]}
{"id": "C95", "title": "product types have tombstones iff their components do", "statement": "A tuple-like type has a tombstone exactly if it has elements and each has one; the tombstone is made of theirs.", "quantifier": "every type built from types with and without tombstones, at any depth", "why_tests_cant": "types are unbounded in number", "anchors": ["include/stdx/optional.hpp: tombstone_traits, has_tombstone_v"]}
{"id": "C96", "title": "transform and and_then unpack if necessary", "statement": "transform and and_then on an optional call a function that accepts the contained value with it, and one that accepts the elements of a contained tuple-like value with those.", "quantifier": "every contained type and function", "why_tests_cant": "types and functions are unbounded in number", "anchors": ["include/stdx/optional.hpp: transform, and_then, unwrap_invoke"]}
{"id": "C97", "title": "element access preserves the value category of the tuple", "statement": "get<I>, get<T>, indexing with index<I> and apply give the element itself, not a copy, const if the tuple is const and the element is a value, as an rvalue if the tuple is one and the element is not an lvalue reference, as with std::get; apply on forward_as_tuple(args...) passes exactly args; and a use of get that cannot be satisfied removes the function it occurs in from the candidates.", "quantifier": "every tuple of values and references, every value category of the tuple, every index and type", "why_tests_cant": "element types are unbounded; tests look at one int", "anchors": ["include/stdx/tuple.hpp: element, tuple_impl::operator[], get, apply, tail, fold_left, fold_right, join, forward_as_tuple", "docs/tuple.adoc: accessing tuple elements"]}
{"id": "C98", "title": "structured bindings name the elements of a tuple", "statement": "auto [a, b] = t, auto &[a, b] = t and their const forms are accepted for every tuple; each name denotes the element (or the object it refers to), with the type of the element, const if the binding is.", "quantifier": "every tuple of values and references, every form of binding", "why_tests_cant": "element types are unbounded; tests bind an int and a float", "anchors": ["include/stdx/tuple_destructure.hpp", "include/stdx/tuple.hpp: get"]}
{"id": "C99", "title": "STDX_MAP applies f to every argument", "statement": "STDX_MAP(f, x1, ..., xn) becomes f(x1), ..., f(xn), in order and with nothing else, for a function or a macro f; arguments may contain commas in parentheses; without arguments it becomes nothing.", "quantifier": "every function or macro, every number of arguments, all arguments", "why_tests_cant": "the number of arguments and their texts are unbounded; tests use three", "anchors": ["include/stdx/pp_map.hpp", "include/stdx/ct_format.hpp: STDX_CT_FORMAT"]}
{"id": "C100", "title": "an argument of ct_format is formatted by what it denotes", "statement": "A value given to ct_format as std::integral_constant or in CX_VALUE, a type, a compile-time string as cts_t or as a type, an enumerator (by its name) and a format result are formatted at compile time, with the same result in whichever form they are given and however often they are wrapped in CX_VALUE; every other argument is kept, in order, as a runtime argument. ct_format_as is applied once. The result converts to a string exactly if no runtime argument is left.", "quantifier": "every format string, all arguments in all forms, any depth of wrapping", "why_tests_cant": "forms nest without bound and combine with every field; tests wrap once", "anchors": ["include/stdx/ct_format.hpp: arg_value, format1, format_as, format_result, ct_format", "include/stdx/utility.hpp: CX_VALUE", "docs/ct_format.adoc"]}
{"id": "C101", "title": "building tuples keeps types and moves only from rvalues", "statement": "make_tuple decays its arguments; tuple_cons and tuple_snoc decay the single argument and keep the types of the tuple's elements, references included; filter, apply_indices, tuple_cat, sort and the groups of chunk_by and gather_by keep the types. Every value element is moved if it was given as an rvalue that is not const and copied otherwise, references refer to the same objects; nothing is moved out of an lvalue.", "quantifier": "every tuple of values and references, every argument, every value category", "why_tests_cant": "element types, their number and the categories combine without bound; tests use move-only and reference elements of small tuples", "anchors": ["include/stdx/tuple.hpp: make_tuple, make_indexed_tuple, apply_indices", "include/stdx/tuple_algorithms.hpp: tuple_cat, tuple_cons, tuple_snoc, filter", "docs/tuple_algorithms.adoc: tuple_cons, tuple_snoc", "docs/tuple.adoc: constructing a tuple"]}
{"id": "C102", "title": "reverse traversal visits the elements from the last to the first", "statement": "A loop from rbegin() to rend(), or crbegin() to crend(), over a span, a ct_string or a cx_vector, const or not, visits exactly its elements in reverse order, without the terminator of a string.", "quantifier": "every container and contents, both forms, const and not", "why_tests_cant": "contents are unbounded; there is no test for the reverse iterators of cx_vector", "anchors": ["include/stdx/span.hpp: rbegin, rend, crbegin, crend", "include/stdx/ct_string.hpp: rbegin, rend", "include/stdx/cx_vector.hpp: rbegin, rend, crbegin, crend", "docs/cx_vector.adoc: iterators"]}
{"id": "C103", "title": "copies of latched and cached values are independent", "statement": "For any number of latched and cached objects that share a function, constructed, copied and assigned in any way: the function is called exactly at the refreshes and at the accesses to an object without a value. Each object behaves by its own history alone, which for a copy begins with the history of what it was copied from; it holds the result of the call made at its last refresh, or at the first access after its last reset.", "quantifier": "every stateful function, every history of any number of objects; result types that are made from the result of the function (C45 and C46 have the others)", "why_tests_cant": "copies can be made before or after the value is computed and diverge; tests do not copy", "anchors": ["include/stdx/latched.hpp", "include/stdx/cached.hpp"]}
{"id": "C104", "title": "for_each and enumerate give back the function object", "statement": "for_each and enumerate over tuples, and for_each over a bitset, return the function object that was passed: for an lvalue the object itself, for an rvalue an object, in either case in the state after the last call. They accept every function object that can be called and, for an rvalue, moved.", "quantifier": "every function object (copyable or not), passed as a const or non-const lvalue or rvalue; every number and length of tuples, every bitset", "why_tests_cant": "depends on the value category and type of the function object; tests pass only temporary lambdas", "anchors": ["include/stdx/tuple.hpp: for_each", "include/stdx/tuple_algorithms.hpp: for_each, enumerate", "include/stdx/bitset.hpp: for_each", "docs/tuple_algorithms.adoc"]}
{"id": "C105", "title": "tuple algorithms work on everything that is like a tuple, and nothing else", "statement": "stdx::tuple, indexed_tuple, std::tuple, std::pair, std::array, spans of static extent and integer sequences can be mixed as arguments of for_each, enumerate, all_of, any_of, none_of and transform, which go through the elements up to the shortest length; if all arguments are like arrays, only the unrolled_ functions accept them; any other argument is rejected. transform gives the results as a tuple. An element of an integer sequence can be had only below its length.", "quantifier": "every list of arguments of every kind and length, every function, every target", "why_tests_cant": "unbounded combinations of argument kinds; the acceptance depends on the target's std::size_t", "anchors": ["include/stdx/concepts.hpp: has_tuple_protocol, has_array_protocol", "include/stdx/tuple_algorithms.hpp", "include/stdx/type_traits.hpp: tuple_size_v", "include/stdx/utility.hpp: make_integer_sequence", "docs/design/tuple.md"]}
{"id": "C106", "title": "a span is made only of the elements of an array of its type", "statement": "A span can be made from an array, a range or another span only if the elements are those of an array of the span's element type, up to added const; element i of the span is then element i of the source. If the source is an array (built-in or std::array), a fixed extent beyond its length does not compile, whether the span is initialised directly or by conversion.", "quantifier": "every source with its element type, constness and value category; every extent; both ways of initialisation; any class hierarchy", "why_tests_cant": "which constructor is chosen depends on the combination of source, element types and initialisation; each is a separate instantiation", "anchors": ["include/stdx/span.hpp: constructors", "docs/span.adoc"]}
{"id": "C107", "title": "intrusive list objects can be copied, moved and swapped", "statement": "After a list object is copied or moved into another one (construction, assignment, swap, return from a function), both objects can be used as lists: the destination holds the nodes in order, a moved-from list is empty, later operations on one object do not disturb the other, and nodes that belong to no list any more can be added again without a panic.", "quantifier": "every history of list operations, copies and moves over any number of list objects and nodes, both lists, both node policies", "why_tests_cant": "ownership of nodes must be tracked over all histories; tests copy no lists", "anchors": ["include/stdx/intrusive_list.hpp", "include/stdx/intrusive_forward_list.hpp"]}
{"id": "C108", "title": "with_result_of calls its function exactly where it is converted", "statement": "with_result_of wraps any callable without calling it; copying the wrapper or passing it on calls nothing; each time a value is initialised from it, the function is called exactly once, at that point, and the value is its result (or its exception passes through). A program with wrappers does what the same program does that calls the function objects where the wrappers are used.", "quantifier": "every callable with its own members and effects on the outside, every program that makes, copies, passes on and converts wrappers, every type of the initialised value", "why_tests_cant": "when and how often the function is called must be known for all programs; whether it is called at all depends on the constructors of the type initialised", "anchors": ["include/stdx/functional.hpp: with_result_of", "docs/functional.adoc"]}
{"id": "C109", "title": "safe_identity, unary_plus and dereference do what their operators do", "statement": "safe_identity returns its argument unchanged and the result never dangles: it is the argument itself for an lvalue and a new value otherwise. unary_plus returns an integer's value unchanged in the promoted type, and dereference the object pointed to; with a type argument they take what std::negate would take, and without one anything.", "quantifier": "every value category and constness, every type with any combination of copy and move, every integer type and value, every pointer", "why_tests_cant": "value categories, copy and move abilities and integer types combine freely; dangling shows only after the full-expression", "anchors": ["include/stdx/functional.hpp: unary_plus, safe_identity, dereference", "docs/functional.adoc"]}
{"id": "C110", "title": "latched and cached values stay single under re-entry, threads and writes", "statement": "A latched or cached value is computed at most once per epoch, and every access in the epoch returns it, also when the function itself uses the object, when several threads access a constant object, and when the reference that refresh returns is written to.", "quantifier": "every function that may ask for or access the object it belongs to, any number of threads with any operations and every schedule, every history with writes", "why_tests_cant": "needs all schedules, and functions that re-enter the object to any depth", "anchors": ["include/stdx/latched.hpp", "include/stdx/cached.hpp", "docs/latched.adoc", "docs/cached.adoc"]}
{"id": "C111", "title": "STATIC_ASSERT compiles exactly if its condition is true", "statement": "STATIC_ASSERT(cond, fmt, args...) compiles exactly if cond is true, like static_assert, and has then the value true; if cond is false, the error shows the message formatted as by ct_format.", "quantifier": "every condition, as any text with matched brackets, and every message", "why_tests_cant": "conditions are unbounded texts; a test that fails to compile shows one of them", "anchors": ["include/stdx/static_assert.hpp: STATIC_ASSERT", "docs/static_assert.adoc"]}
{"id": "C112", "title": "a panic is one call of the handler with the message and the arguments", "statement": "panic(args...), panic<S>(args...) and STDX_PANIC(msg, args...) call the installed handler exactly once, with the whole message as a compile-time string (for the last two) and the arguments in order, rvalues as rvalues.", "quantifier": "every message and list of arguments, of any value category and storage duration", "why_tests_cant": "arguments are unbounded in number and kind; tests pass none to the macro", "anchors": ["include/stdx/panic.hpp: panic, STDX_PANIC", "docs/panic.adoc"]}
{"id": "C113", "title": "ct_string and cts_t can be mixed", "statement": "An expression of ct_strings and cts_ts with + has the texts of its parts in order and one terminator, and is a cts_t exactly if all its parts are (or ct was applied); two strings of either kind are equal exactly if their texts are. Nothing else is accepted.", "quantifier": "every expression of strings of both kinds, of any depth and sizes", "why_tests_cant": "expressions nest without bound; tests combine two strings", "anchors": ["include/stdx/ct_string.hpp: operator+, operator==, cts_t, ct", "docs/ct_string.adoc: cts_t"]}
{"id": "C114", "title": "is_complete_v and is_structural_v", "statement": "is_complete_v<T> is true exactly where T is complete. is_structural_v<T> is true exactly if T may be the type of a template parameter.", "quantifier": "every translation unit that defines and asks about any number of types; every system of types with any constructors", "why_tests_cant": "the answers depend on everything that came before, and on constructors that refer to each other without bound", "anchors": ["include/stdx/type_traits.hpp: is_complete_v, is_structural_v", "docs/type_traits.adoc"]}
{"id": "C115", "title": "references into the fixed-capacity containers", "statement": "A reference or iterator to an element refers to it as long as the element is in the container; what is written through it is seen by the container, which remains a vector, set or map. Arguments that refer to the container's own elements have the same effect as copies of them.", "quantifier": "every history of operations; every element; every loop that writes through iterators; every operation and every element as its argument", "why_tests_cant": "histories are unbounded; tests do not keep references while other elements are erased, nor pass the container's own elements back to it", "anchors": ["include/stdx/cx_vector.hpp: operator[], push_back", "include/stdx/cx_set.hpp: begin, insert, erase", "include/stdx/cx_map.hpp: get, begin, erase, insert_or_assign", "include/stdx/cx_multimap.hpp: erase"]}
{"id": "C116", "title": "overload selection with priority_t", "statement": "With overloads that take priority_t<p> as last parameter, a call with priority<n> calls the overload with the highest p <= n that can be called with the other arguments; with distinct priorities a call is never ambiguous, and it has no match only if no overload with p <= n can be called.", "quantifier": "every set of overloads of any size with any priorities; every n; every argument", "why_tests_cant": "overload sets are unbounded; tests have three overloads of one shape", "anchors": ["include/stdx/priority.hpp: priority_t, priority", "docs/priority.adoc", "test/priority.cpp"]}
{"id": "C117", "title": "containers of elements whose copies throw", "statement": "If copying or moving an element throws out of an operation of a vector, set, map or queue, the container has the contents that it had before and can be used on.", "quantifier": "every operation that copies or moves elements, in every state and every later history; every value that an assignment that throws leaves behind", "why_tests_cant": "states and histories are unbounded; tests use elements that do not throw", "anchors": ["include/stdx/cx_vector.hpp: push_back, pop_back", "include/stdx/cx_set.hpp: insert, erase", "include/stdx/cx_map.hpp: insert_or_assign, erase", "include/stdx/cx_queue.hpp: push, pop"]}
{"id": "C118", "title": "References from a counting_iterator are to elements, not to the iterator", "statement": "Dereferencing a counting_iterator gives the number it has counted to, whatever is done with other iterators. As for every forward iterator, a reference so obtained still denotes that number when the iterator moves on or ends, equal iterators refer to the same element, writing through the reference does not move the iterator, and std::reverse_iterator can be dereferenced.", "quantifier": "every integer type and every history of making, copying, moving, destroying and writing through any number of iterators", "why_tests_cant": "histories and numbers of iterators are unbounded; dangling references often still read the right value in a test", "anchors": ["include/stdx/iterator.hpp: counting_iterator::operator*"]}
{"id": "C119", "title": "an atomic of any type behaves as a variable of that type, whatever it is stored as", "statement": "stdx::atomic<T> can be constructed from a value and offers load, store, exchange and assignment for every trivially copyable T, and the arithmetic and bitwise operations wherever T has them. Operations of any number of threads take effect one after the other as on a variable of type T; which type the configuration stores the value as makes no difference.", "quantifier": "every integer type, bool, enumeration, pointer and class, every storage type the configuration may choose, every number of threads and every schedule", "why_tests_cant": "types, storage types, operations and schedules combine without bound; member functions of templates that do not compile are only noticed when used", "anchors": ["include/stdx/atomic.hpp: atomic", "docs/atomic.adoc", "test/detail/atomic_cfg.hpp"]}
{"id": "C120", "title": "iterators of intrusive lists while the lists change", "statement": "An iterator of an intrusive list is at a node. Whatever is done to the lists, while that node is in a list the iterator dereferences to it and advancing leads to the element that follows it in that list by then, or to end(). A loop that advances before it acts on an element can therefore remove the element or move it to another list, and visits every element exactly once; the elements not removed remain, in order.", "quantifier": "every history of operations on any number of lists and iterators, both policies, doubly and singly linked; every predicate", "why_tests_cant": "histories, lists and interleavings of iterators with changes are unbounded; tests do not keep iterators while a list changes", "anchors": ["include/stdx/intrusive_list.hpp: iterator_t, begin, end, insert, remove", "include/stdx/intrusive_forward_list.hpp: iterator_t"]}
{"id": "C121", "title": "keys that are equivalent but not identical", "statement": "If == of the key type is an equivalence relation coarser than identity, a cx_map is a partial function on classes of equivalent keys and a cx_set a set of classes: every equivalent key finds and removes the same entry, put with an equivalent key replaces the value, keeps the key stored first and returns false, insert of an equivalent element changes nothing, merge takes the first of each class, and iteration shows one entry per class. A key that is not equal to itself is never found, and each put of it adds another entry.", "quantifier": "every capacity, key type with any equivalence relation as ==, value type and history of operations within the capacity; for keys not equal to themselves every number of insertions", "why_tests_cant": "equivalence relations and histories are unbounded; the tests only use integers as keys", "anchors": ["include/stdx/cx_map.hpp: cx_map", "include/stdx/cx_set.hpp: cx_set"]}
{"id": "C122", "title": "CX_VALUE tells types from values", "statement": "CX_VALUE(x)() is the value of x if x is an expression that uses no local variable, a constant expression if x is one, and the type_identity of x if x is an object type; STDX_IS_TYPE(x) says which. Commas belong to the expression or type.", "quantifier": "every text that is a type or an expression, of any depth", "why_tests_cant": "expressions and types nest without bound; tests use a handful of them", "anchors": ["include/stdx/utility.hpp: CX_VALUE, STDX_IS_TYPE", "docs/utility.adoc"]}
{"id": "C123", "title": "Removing nodes that are not in the list", "statement": "remove(n) takes n out of the list it is in and leaves all other elements of all lists alone; with the checked policy, removing a node that is in no list, or in another list, is reported to the panic handler or changes no other element.", "quantifier": "all histories of operations on any number of lists sharing nodes, all nodes and lists remove is called on", "why_tests_cant": "the effect depends on the position of the node in another list and on the contents of both, which have any length", "anchors": ["include/stdx/intrusive_list.hpp: remove", "docs/intrusive_list.adoc"]}
{"id": "C124", "title": "Moves of latched and cached objects", "statement": "Moving a latched or cached object gives an object with the same value, and the moved-from object stays usable: an access gives a value the function has computed.", "quantifier": "all histories of copies, moves, assignments, accesses, resets and refreshes of any number of objects, all functions, all effects of a move on a value", "why_tests_cant": "histories are unbounded, and what a move leaves behind depends on the type of the value; tests of moves look at the new object only", "anchors": ["include/stdx/latched.hpp: latched", "include/stdx/cached.hpp: cached"]}
{"id": "C125", "title": "Algorithms work for the types of every library", "statement": "for_each_butlastn, for_each_butlast, initial_medial_final, cartesian_product and cartesian_product_copy make the same calls and return the same kind of result for iterators, operations and elements of every type, in particular those of the standard library.", "quantifier": "all types of iterators, operations and elements (built from builtin types, classes, templates and pointers), all ranges and counts", "why_tests_cant": "which function an unqualified call means depends on the namespaces of all argument types; tests use arrays of builtin types and lambdas", "anchors": ["include/stdx/algorithm.hpp: for_each_butlastn, initial_medial_final", "include/stdx/tuple_algorithms.hpp: cartesian_product, cartesian_product_copy"]}
{"id": "C126", "title": "Only tuples that correspond element by element can be compared", "statement": "a == b and a <=> b compile for tuples exactly if both have the same number of elements and corresponding elements are comparable; then == tells whether all elements are equal and <=> is the lexicographic comparison. Tuples of different lengths, tuples with elements that cannot be compared, and a tuple and something else are rejected.", "quantifier": "all lists of element types and index functions of both operands, all values", "why_tests_cant": "every base class of both tuples declares comparison operators, and which one is meant depends on all element types; the tests that must fail to compile have two elements in common", "anchors": ["include/stdx/tuple.hpp: operator==, operator<=> of tuple_impl, element, tuple and indexed_tuple", "docs/tuple.adoc"]}
{"id": "C127", "title": "rollover_t types have a common type", "statement": "std::common_type of two rollover_t types, and of a rollover_t type and an integer type in either order, is a rollover_t that can be used and holds every value of both (of the unsigned counterpart of a signed integer type); converting there and back keeps values, and a std::chrono duration counted in a rollover_t converts to shorter ticks modulo 2^W.", "quantifier": "every platform's integer types, every pair of types, every value and factor", "why_tests_cant": "the result depends on integer promotions of both types and on the platform; the tests use pairs of equal types", "anchors": ["include/stdx/rollover.hpp: std::common_type specialisations", "docs/design/rollover.md"]}
{"id": "C128", "title": "Capacity known at compile time", "statement": "ct_capacity(x) is the number of elements an object of x's type has room for - the length of an array, the size of a span of fixed extent, and for a cx_vector, cx_set, cx_map, cx_multimap or cx_queue exactly the number of different elements (keys) that can be inserted into an empty one - whatever the qualifiers and value category of x. A type without such a capacity, including a span of dynamic extent, is rejected. ct_capacity_v<T> is the same for the type T.", "quantifier": "every array, span and container type with every size and extent, every combination of const, volatile and reference, and every sequence of different elements inserted", "why_tests_cant": "tests check a few sizes; that the constant agrees with what insertion accepts is a statement about all sizes and sequences, and which specialisation is chosen depends on the combination of qualifiers", "anchors": ["include/stdx/iterator.hpp: ct_capacity, ct_capacity_v", "include/stdx/span.hpp: ct_capacity_v", "include/stdx/cx_vector.hpp: ct_capacity_v", "include/stdx/cx_set.hpp: ct_capacity_v", "include/stdx/cx_map.hpp: ct_capacity_v", "include/stdx/cx_multimap.hpp: ct_capacity_v", "include/stdx/cx_queue.hpp: ct_capacity_v"]}
{"id": "C129", "title": "Types deduced from initialisers", "statement": "A cx_vector, cx_set or tuple made of arguments without naming its type has exactly as many elements as there are arguments, and they are the arguments, in order (those of a tuple with their own types). A span made of an object without naming its type views all elements of the object, has const elements exactly if they are const in the object, and knows its size at compile time exactly if the type of the object does; a span of a temporary does not compile.", "quantifier": "every number of arguments of every type and value, including containers, tuples and classes derived from them, with any conversions between the types; every array, range and span as the source of a span, with every constness and value category", "why_tests_cant": "which deduction guide is chosen depends on number and types of the arguments; tests name a few combinations, mostly of one type", "anchors": ["include/stdx/cx_vector.hpp: deduction guide, constructor", "include/stdx/cx_set.hpp: deduction guide, constructor", "include/stdx/tuple.hpp: deduction guide", "include/stdx/span.hpp: deduction guides, constructors"]}
{"id": "C130", "title": "Publication, locks and reference counts through atomics", "statement": "A member function of atomic or atomic_bitset makes one access to the object, with the memory order it is given and seq_cst if it is given none. Hence what a thread does before it sets a position of an atomic_bitset with a releasing order happens before what another does after being told, by any member function with an acquiring order, that the position is set, whatever is done to the other positions with any orders; a position set with acquire and cleared with release is a lock, independent of the other positions; and whoever gives up the last of the references counted by an atomic does so after all others have given up theirs.", "quantifier": "every number of threads, programs and executions that the memory model allows, every size and position, every combination of orders", "why_tests_cant": "reorderings that a missing or weaker order allows show only on some machines and rarely; that a guarantee holds in all executions cannot be observed", "anchors": ["include/stdx/atomic_bitset.hpp: load, store, set, reset, flip, all, any, none, count, to, operator[]", "include/stdx/atomic.hpp: load, store, exchange, fetch_add, fetch_sub, operators"]}
{"id": "C131", "title": "Traversing a bitset while the callback changes it", "statement": "for_each and transform_reduce over a bitset end whatever their function does to the bitset meanwhile; they call it for positions in ascending order and for none twice. A position whose bit stays the same until the traversal is past it is called for exactly if the bit has the value asked for, and every position called for had that value at some moment. If the function changes no position above the one it is called for, it is called for the bits as they were at the beginning: a traversal that resets each position leaves the bitset empty and misses none. The positions called for do not depend on the type the bitset is stored in.", "quantifier": "every size, storage type, contents, bit specification and every function that changes the bitset in any way", "why_tests_cant": "the number of ways a function can change a bitset in the course of a traversal is not finite; whether a change is seen depends on how positions fall into words", "anchors": ["include/stdx/bitset.hpp: for_each, transform_reduce"]}
{"id": "C132", "title": "Loops that change the container they iterate over", "statement": "A loop over a cx_vector, cx_set, cx_map or cx_multimap whose body inserts into or erases from that container visits every element that is in the container throughout the loop exactly once, and no element that has been erased; and it is defined as long as the operations of the body are. In particular a loop that erases the elements that meet a condition leaves exactly the others, and a loop that inserts what follows from the visited elements leaves all that follows.", "quantifier": "every container, every condition and every body; range-based for, loops over iterators with end() called once or in every turn, loops over indices, loops that take the elements out", "why_tests_cant": "which element is at which place after an erasure depends on the whole history, and which loops survive it depends on how the last element is moved; tests try a few containers", "anchors": ["include/stdx/cx_vector.hpp: begin, end, size, operator[], push_back, pop_back", "include/stdx/cx_set.hpp: begin, end, insert, erase, pop_back", "include/stdx/cx_map.hpp: begin, end, insert_or_assign, erase, pop_back"]}
{"id": "C133", "title": "Moving optionals", "statement": "Moving from an optional gives the destination what the source held, and leaves a source that was empty empty; swapping exchanges what two optionals hold. The rvalue forms of value(), *, value_or and or_else move out of the optional only if it holds a value; value_or moves from its default only if the optional holds none. So in any history of copies, moves, swaps and rvalue calls on any number of optionals, every optional whose value has not been moved from tells what was last put into it.", "quantifier": "every value type with its moves, every number of optionals (also an optional moved to itself) and every history", "why_tests_cant": "what a moved-from optional tells depends on what the moves of the value type leave behind in the tombstone, and tests use types whose moves are copies", "anchors": ["include/stdx/optional.hpp: optional, has_value, value, operator*, value_or, or_else, emplace, reset"]}
{"id": "C134", "title": "Messages between hosts", "statement": "A sequence of unsigned fields written through a byterator after conversion with to_le or to_be, with or without advance_to_alignment before each field, leaves the same bytes on hosts of both byte orders. When these bytes are copied into the storage of any other host and read there with the same sequence of byterator reads and from_le or from_be, the numbers are those that were written.", "quantifier": "every sequence of fields of any standard sizes, orders and alignments, every host byte order on either side, every storage and every place in it", "why_tests_cant": "needs hosts of both byte orders and every address; tests run on one host", "anchors": ["include/stdx/byterator.hpp: read, write, advance_to_alignment", "include/stdx/bit.hpp: to_le, to_be, from_le, from_be"]}
{"id": "C135", "title": "An atomic_bitset used by one thread is a bitset", "statement": "Where only one thread uses it, an atomic_bitset can stand for a bitset of the same size: constructed in the same way and given the same calls, both answer every question that both can be asked (operator[], all, any, none, count, to, size) with the same value, and a value returned by set, reset, flip or load of the atomic one is what a copy of the bitset taken before the call holds. all, any, none, count and operator[] are load followed by the same question to the bitset. With any number of threads, the bitsets that are returned hold nothing outside their size, so that lowest_unset and transform_reduce on them are right.", "quantifier": "every size, storage type of either, constructor, and every history of calls with positions and ranges inside the bitset; for the returned bitsets every number of threads and every schedule", "why_tests_cant": "the histories are unbounded, and the two classes store, mask and shift differently, so that agreement depends on the size, the types and all the calls made before", "anchors": ["include/stdx/atomic_bitset.hpp: atomic_bitset, load, store, set, reset, flip, to, operator[], all, any, none, count, size", "include/stdx/bitset.hpp: bitset, set, reset, flip, to, operator[], all, any, none, count, size, lowest_unset, transform_reduce"]}
{"id": "C136", "title": "Equal values are interchangeable", "statement": "Bitsets for which == is true, and cx_vectors for which == is true, are interchangeable: a program that is given one instead of the other learns the same from every call it makes on them and on what it computes from them with the members and operators, and ends with values that are equal again.", "quantifier": "every size, storage type and contents, every number of variables and every program over them that meets the preconditions", "why_tests_cant": "whether equal values differ in what is stored beside their elements, and whether some later call shows it, depends on the whole history; tests compare values made in one way", "anchors": ["include/stdx/bitset.hpp: operator==, set, reset, flip, |, &, ^, -, ~, <<, >>, to, operator[], all, any, none, count, for_each, lowest_unset, transform_reduce", "include/stdx/cx_vector.hpp: operator==, push_back, pop_back, clear, resize_and_overwrite"]}
{"id": "C137", "title": "Spans of vectors while the vectors change", "statement": "A span of a cx_vector stays usable whatever is done to the vector: reading position i of it gives the element that the vector has at the corresponding place by then, writing changes that element of the vector and nothing else, and subspans and conversions denote the same places. A span shows elements of the vector and nothing else.", "quantifier": "every capacity, every number of vectors and spans, and every program over them in which accesses are within the spans", "why_tests_cant": "which elements a span shows depends on everything done to the vector, and through other spans, since it was taken; tests take a span and use it at once", "anchors": ["include/stdx/cx_vector.hpp: begin, end, push_back, pop_back, clear, operator[], resize_and_overwrite", "include/stdx/span.hpp: span, first, last, subspan, operator[], begin, end, size"]}
{"id": "C138", "title": "Data shared by means of several atomics", "statement": "Data that is not atomic can be shared by means of any number of atomics and atomic_bitsets. What a thread has written is visible to every thread it has handed over to, also through further threads that use other atomics, if setting the position or changing the value releases and looking at it acquires. Data that is accessed only while a position of an atomic_bitset is held as a lock is never accessed by two threads at once. Whoever gives up the last reference counted by an atomic may write whatever the other holders have accessed. None of this depends on what the threads do with other objects. With relaxed orders the data is raced for.", "quantifier": "every number of threads, objects and data, every program and every schedule", "why_tests_cant": "races show in few schedules, and on few machines; tests run some schedules on one machine", "anchors": ["include/stdx/atomic.hpp: load, store, fetch_sub, operator--, operator-=", "include/stdx/atomic_bitset.hpp: set, reset, flip, operator[], load, store"]}
{"id": "C139", "title": "Functions that throw", "statement": "If a function handed to an algorithm throws, the exception reaches the caller, and the effects are those of the calls before it, in the order the algorithm promises, and of the throwing call itself: nothing is called after it, transform has written the results of the calls before it and nothing else, and resize_and_overwrite leaves the size as it was. This holds for the algorithms over iterators, over tuples (transform, for_each, enumerate, all_of, any_of, none_of, folds), over bitsets, and for for_each_n_args.", "quantifier": "every function, also with state and effects, whichever of its calls throws; every range, tuple and bitset", "why_tests_cant": "the exception can come from any call of any length of traversal; the tests use no function that throws", "anchors": ["include/stdx/algorithm.hpp: transform, transform_n, for_each, for_each_n, for_each_butlastn, for_each_butlast, initial_medial_final", "include/stdx/numeric.hpp: transform_reduce, transform_reduce_n", "include/stdx/tuple.hpp: fold_left, fold_right", "include/stdx/tuple_algorithms.hpp: transform, for_each, enumerate, all_of, any_of, none_of", "include/stdx/bitset.hpp: for_each, transform_reduce", "include/stdx/for_each_n_args.hpp: for_each_n_args", "include/stdx/cx_vector.hpp: resize_and_overwrite"]}
{"id": "C140", "title": "Comparisons that throw", "statement": "If an operator of an element, key or value type throws during a call of the library, the exception reaches the caller, and the object is as it was before the call: a cx_set, cx_map or cx_multimap keeps all its contents and further calls behave as if the failed one had not been made (merge may have added a first part of what it was given). Comparisons of vectors, tuples and one_of compare elements in order and stop at the first that decides or throws. An optional passes the exception on, and so do its comparisons.", "quantifier": "every comparison that returns the truth or throws, at any time and with any effects of its own; every history of calls, any number of which throw", "why_tests_cant": "the exception can come from any of the comparisons of any call of a history; the tests use no comparison that throws", "anchors": ["include/stdx/cx_set.hpp: insert, erase, merge, contains", "include/stdx/cx_map.hpp: get, contains, insert_or_assign, put, erase", "include/stdx/cx_multimap.hpp: insert, put, erase, get, contains", "include/stdx/cx_vector.hpp: operator==", "include/stdx/tuple.hpp: operator==, operator<=>, one_of", "include/stdx/optional.hpp: has_value, operator bool, value_or, transform, and_then, or_else, operator==, operator<"]}
{"id": "C141", "title": "Panic handlers that throw", "statement": "If the panic handler of the program throws, the exception reaches the caller of the queue or list function that was misused, and queue, lists and nodes are as they were before that call; the program can catch the exception and go on. A cx_queue with the safe policy then stands any sequence of calls: pushes onto a full queue and accesses to an empty one are refused with one call of the handler each, all other calls do what a bounded queue does. Likewise intrusive lists with the checked policy go on as sequences of nodes after pushing or inserting a node has been refused because it is in a list.", "quantifier": "every handler that may throw or return each time it is called, with effects of its own; every capacity, number of lists and nodes, and every history of calls, any number of which are refused", "why_tests_cant": "the misuse can come at any moment of a history, and what is left behind shows only in later calls; the tests misuse one queue of one element with a handler that throws, and lists with one that records the call and returns", "anchors": ["include/stdx/panic.hpp: panic, STDX_PANIC", "include/stdx/cx_queue.hpp: push, pop, front, back", "include/stdx/intrusive_list.hpp: push_front, push_back, insert", "include/stdx/intrusive_forward_list.hpp: push_front, push_back", "include/stdx/detail/list_common.hpp: push_front, push_back, insert, valid_for_push"]}
{"id": "C142", "title": "Panic handlers that repair", "statement": "If the panic handler of the program makes calls on the queue or the lists that put right what was misused, and returns, then the misused call goes on as if it had been made on what the handler has left. So a cx_queue with the safe policy and a handler that pops one element on overflow is a ring buffer: after any number of pushes it holds the last N elements, oldest first, and the handler has been called once for each element dropped. A node that an intrusive list with the checked policy finds to be in a list can be taken out by the handler and is then pushed or inserted where the caller wanted it; an iterator passed to insert has to be valid before and after the calls of the handler.", "quantifier": "every handler that makes calls chosen by the message and by a state of its own; every capacity, number of lists and nodes, and every history of calls, any number of which are misused and put right", "why_tests_cant": "the handler changes the object in the middle of a call on it, so that whatever the call has read before is stale; the tests use handlers that throw, or record the call and return", "anchors": ["include/stdx/panic.hpp: panic, STDX_PANIC", "include/stdx/cx_queue.hpp: push, pop, front, back", "include/stdx/intrusive_list.hpp: push_front, push_back, insert", "include/stdx/intrusive_forward_list.hpp: push_front, push_back", "include/stdx/detail/list_common.hpp: push_front, push_back, insert, valid_for_push"]}
{"id": "C143", "title": "Timers", "statement": "A client can keep timers in an intrusive_list with the checked policy, ordered by members of type rollover_t: a timer is inserted before the first one that cmp_less says is later, timers are removed to cancel them, and expiring pops from the front until the first timer that is later than now. However often the time rolls over, each call that expires timers pops exactly those that are due in true time, earliest first and those of the same time in the order in which they were scheduled, as long as pending times are less than half of the range before and at most half of the range after the time of a call. Nodes can be scheduled again once they have expired or been cancelled. Beyond these distances a timer expires at once, or does not expire.", "quantifier": "every width of the time, every number of nodes, every history of scheduling, cancelling and expiring", "why_tests_cant": "whether two rolling-over times are ordered right depends on their distance in true time, which tests with fixed times do not vary; the order of the list depends on the whole history", "anchors": ["include/stdx/intrusive_list.hpp: insert, remove, pop_front, front, empty, begin, end, iterator", "include/stdx/rollover.hpp: rollover_t, cmp_less"]}
{"id": "C144", "title": "Ready queues", "statement": "A client can keep tasks in one intrusive_list per priority and the priorities without tasks in a bitset that starts with set(): making a task ready pushes it at the back and resets the position, blocking removes it and sets the position if the list is empty, the next task is popped from the list lowest_unset() names. The next task is always the one that has been ready longest among those of highest priority, and there is none exactly if no task is ready; rotating a priority moves its first task behind the others of it.", "quantifier": "every number of priorities and tasks, every word size, both policies of the lists, and every history of making ready, blocking, rotating and taking", "why_tests_cant": "lists and bitset have to agree after every history; set() leaves bits set that are no priorities, which shows only if the number of priorities does not fill whole words", "anchors": ["include/stdx/intrusive_list.hpp: push_back, pop_front, remove, empty", "include/stdx/bitset.hpp: set, reset, lowest_unset, size"]}
{"id": "C145", "title": "Identifiers", "statement": "A client can keep in a bitset which of N identifiers are in use, and acquire them with lowest_unset() and set(): acquiring gives the least identifier that is not in use, and none exactly if all are in use, also after set(), reset() and flip() of the whole bitset. So no identifier is given out again before it has been released. N minus count() is the number of free identifiers, and all() tells whether there is none.", "quantifier": "every number of identifiers, every word size, and every history of acquiring, claiming and releasing", "why_tests_cant": "which identifier comes next depends on the whole history, and whether lowest_unset() is in range on bits that are not part of the set", "anchors": ["include/stdx/bitset.hpp: set, reset, flip, operator[], lowest_unset, count, all, size"]}
{"id": "C146", "title": "Caches", "statement": "A client can make a cache of N entries from a cx_map and two intrusive_lists of N nodes with members for key and value: the map finds the node of a key, nodes in use are in a list in the order of use, and putting a new key into a full cache pops the last one and erases its key from the map. The cache answers as a list of entries that drops what has not been used for longest. In particular a value that was put is found if fewer than N other keys have been used since, however often; and a key is not found after N other keys have been put.", "quantifier": "every key and value type with decidable equality, every N but 0, both policies of the lists, every history of getting, putting and erasing", "why_tests_cant": "map and lists have to agree after every history, while erasing moves entries of the map around and nodes are used again for other keys", "anchors": ["include/stdx/cx_map.hpp: contains, get, put, erase, full", "include/stdx/intrusive_list.hpp: push_front, push_back, pop_front, pop_back, remove"]}
{"id": "C147", "title": "Breadth-first search", "statement": "A client can search a graph of N nodes, given as one bitset of successors for each, with a bitset of the nodes seen and a cx_queue of capacity N: pop a node, push by for_each what operator- leaves of its successors without the nodes seen, and add that to the nodes seen by operator|=. The search ends after at most N pops and never overflows the queue; it pops exactly the nodes that can be reached, each once and nearest first, and these are the nodes seen at the end.", "quantifier": "every graph, start and N, every word size, both overflow policies, every panic handler, whatever the bits of the successors that are no nodes", "why_tests_cant": "ending and the bound on the queue depend on the whole graph; unused bits of the words would be pushed as nodes if any of the calls let them through", "anchors": ["include/stdx/bitset.hpp: set, operator-, operator|=, for_each", "include/stdx/cx_queue.hpp: push, pop, empty"]}
{"id": "C148", "title": "Identifiers shared by threads", "statement": "Threads can share N identifiers with one atomic_bitset of those in use: to acquire one, take lowest_unset() of load(), give up if it is not below N, else set it and look at that position of the bitset returned: if it is unset there, the identifier is acquired, otherwise try again; reset() releases. Whatever the memory orders, no identifier is held by two threads; an acquisition fails only when at that moment all identifiers were held, or when other threads have acquired as many identifiers meanwhile as the thread has tries; no thread is ever blocked; and the bits set are exactly the identifiers that are held.", "quantifier": "every number of threads, each with every list of acquisitions and releases, every number of tries, every schedule of the atomic steps and every execution under any memory orders, every N up to the width of the storage", "why_tests_cant": "what a thread sees between its load and its set depends on the schedule; tests with threads run a few schedules of very many", "anchors": ["include/stdx/atomic_bitset.hpp: load, set, reset", "include/stdx/bitset.hpp: lowest_unset, operator[]"]}
{"id": "C149", "title": "Turns by tickets", "statement": "Threads can take turns by means of two atomics: fetch_add(1) or ++ of one, with any memory order, gives a thread its ticket; it has its turn once an acquiring load() of the other one, which starts at 0, gives its ticket; and it ends its turn by storing the next ticket there with an order that releases. If there are not more tickets than the atomic has values, turns are in the order of the tickets: what is done in one turn happens before what is done in the next, and data that is accessed only in turns is not raced for, whatever else the threads do and load. With relaxed stores the data is raced for, and so it is with more tickets than values.", "quantifier": "every number of threads, every program that uses the two atomics like this, every execution under the memory orders given, every width", "why_tests_cant": "turns that overlap need unlucky schedules and weak machines; wrapping round needs as many tickets as there are values", "anchors": ["include/stdx/atomic.hpp: load, store, fetch_add, operator++, operator="]}
{"id": "C150", "title": "Byterators of any sequence", "statement": "As documented, a byterator can be made from any random access iterator of trivially copyable elements and is itself a random access iterator. From an iterator at any element it gives, n bytes on, the n-th byte of the elements from there on, and walking gives them all. It can be default constructed, *i and i[n] are references of the type it declares, and so is what std::reverse_iterator gives.", "quantifier": "every sequence, however its elements are spread over arrays, every element and distance, elements that are const and that are not", "why_tests_cant": "tests use arrays, where all bytes are in one object; what is undefined may seem to work", "anchors": ["include/stdx/byterator.hpp: byterator, operator*, operator[], operator+, operator++", "docs/byterator.adoc"]}
{"id": "C151", "title": "Overflow policies of one's own", "statement": "A cx_queue can be given any overflow policy. push calls check_push once, with the number of elements and the capacity; pop, front and back call check_pop once, with the number of elements; both before anything else is done, and no other function calls the policy. If the policy throws, its exception reaches the caller and the queue is as it was; if it does not return, neither does the call. So with a policy that returns only when the documentation calls the operation safe, any sequence of calls whatsoever is defined and is that of a bounded queue on which what the policy refuses is not done. The policy may refuse more, for instance keep places free, and may have a state, for instance a high-water mark, which then is the largest number of elements there have been. A policy that lets a push onto a full queue through leaves a queue whose size is more than its capacity and whose oldest element is lost.", "quantifier": "every pair of functions of the sizes and of a state of their own, that return, throw or do not return each time; every capacity, and every history of calls, any number of which are refused", "why_tests_cant": "the policy is a parameter of the class, and what it is asked depends on the whole history; the tests use no policy but the default one", "anchors": ["include/stdx/cx_queue.hpp: cx_queue, push, pop, front, back, size, empty, full, clear, safe_overflow_policy, unsafe_overflow_policy"]}
{"id": "C152", "title": "Overload sets", "statement": "overload{fs...} can be called like a set of overloaded functions: a call calls the function object that fits the arguments best, whatever the order in which the functions are given and whether some of them are in an overload of their own; it does not compile if none takes the arguments or if none fits best. On a const object only functions that can be called on const objects take part. Each function object keeps its own state over any number of calls. std::visit with an overload compiles exactly if there is a call for every alternative, all with the same return type, and makes the call for the alternative that is held. It accepts function objects of any different classes that can be derived from.", "quantifier": "every number of function objects, each with any number of call operators with any parameters; every sequence of arguments, every variant", "why_tests_cant": "the choice depends on all the functions of a set and all conversions of an argument; the tests have two functions of one argument", "anchors": ["include/stdx/utility.hpp: overload"]}
{"id": "C153", "title": "A queue shared by threads", "statement": "Threads that use a cx_queue only while they hold a lock made of an atomic_bitset, or have their turn by tickets of two atomics, and that check full() before push and empty() before pop, have a channel: there is an order of all their operations, in accordance with happens-before and, with tickets, with the tickets, in which each gives the result it would give if they were done one after the other on a list of at most as many values as the capacity; none is undefined. The same is true of any other object, up to the first operation that would be undefined. Each value that is received was sent before, is received once and in the order in which the values were sent; and whatever a thread has done before it sent a value happens before whatever the thread does that has received it.", "quantifier": "every number of threads, every number of operations of each, every capacity, every execution that the rules of the language allow, whatever else the threads do with these and other atomics", "why_tests_cant": "it is a statement about all schedules and all orders of memory accesses; the only test with threads has two that set the same bit once", "anchors": ["include/stdx/cx_queue.hpp: push, pop, full, empty", "include/stdx/atomic.hpp: load, store, fetch_add", "include/stdx/atomic_bitset.hpp: set, reset"]}
{"id": "C154", "title": "A ring without locks", "statement": "A ring of N places with two atomic counters, one changed by the thread that sends and one by the thread that receives, each of which loads the other's counter with memory_order_acquire and stores its own with memory_order_release, needs no lock: the threads never access a place at the same time; the k-th value received is the k-th value sent, and what was done before it was sent happens before what is done after it was received; no more than N values are ever in the ring; the sender finds it full only if it has sent N values more than it has seen received, and the receiver finds it empty only if it has received all it has seen sent. The counters may wrap around, if N divides the number of their values and is less than it. With a relaxed store there is a data race.", "quantifier": "every N, every width of the counters, every number of values sent and received, every execution that the rules of the language allow, whatever else these and other threads do", "why_tests_cant": "it is a statement about all schedules and all orders of memory accesses, and about counters that wrap around; the tests call load and store in one thread", "anchors": ["include/stdx/atomic.hpp: load, store, operator="]}
{"id": "C155", "title": "Tickets that wrap around", "statement": "A lock made of two atomics, one from which threads take tickets with fetch_add or ++ and one that shows whose turn it is, protects data however often it is taken: the tickets may wrap around any number of times. What is done in a turn happens before what is done in the turn of any ticket taken later, and data that is only used by threads that have their turn is free of data races, if the threads are not more than the values of the atomics, each ends its turn before it takes another ticket, and tickets are taken with an order that acquires and releases. With one thread more there is an execution with a data race; with tickets taken by memory_order_relaxed there is one too, with two threads, as soon as the tickets have wrapped around.", "quantifier": "every width of the atomics, every number of threads up to the number of values, every number of turns, every execution that the rules of the language allow, whatever else the threads do", "why_tests_cant": "it takes more turns than the atomics have values, and a schedule in which one thread sees an old value; the tests call each function a few times in one thread", "anchors": ["include/stdx/atomic.hpp: load, store, operator=, fetch_add, operator++"]}
{"id": "C156", "title": "Concepts", "statement": "The concepts that the library has in common with the standard (same_as, integral, unsigned_integral, equality_comparable, totally_ordered and so on) accept the same types as those of the standard, so that code means the same whether the standard library has concepts or the library defines them itself. same_any<T, Us...> tells whether T is among the Us, same_none whether it is not, same_as_unqualified whether two types are the same but for qualifiers and references. range accepts what std::begin and std::end can be called for.", "quantifier": "every type with any operators returning anything, every number of types", "why_tests_cant": "the tests compile only one of the two definitions, the one of the compiler at hand, and try a few types; types are unbounded in number", "anchors": ["include/stdx/concepts.hpp: equality_comparable, totally_ordered, unsigned_integral, same_any, same_none, same_as_unqualified", "include/stdx/ranges.hpp: range"]}
{"id": "C157", "title": "Signals", "statement": "Threads or interrupt handlers that raise signals with set in one atomic_bitset, and threads that take those pending with reset of a range, or of a position, and handle those in the bitset it returns: whatever they do is as if they did it one after the other. Taking handles exactly the signals that were raised and not taken since, in ascending order. So no signal is lost: one that is raised is handled by a later taking or still pending. None is handled more often than it was raised, and no thread waits for another. With load and reset(), which returns nothing, a signal raised between the two is lost.", "quantifier": "every number of threads, every sequence of raising and taking in each, every schedule, every execution that the memory orders allow, every number of signals", "why_tests_cant": "a lost signal needs a raise between two steps of another thread, and the tests have one thread", "anchors": ["include/stdx/atomic_bitset.hpp: set, reset, load", "include/stdx/bitset.hpp: for_each, operator[]"]}
{"id": "C158", "title": "Order of dependencies", "statement": "A program that keeps which task waits for which in a cx_multimap, takes a task that waits for nothing, puts it out with push_back, erases its key and its value from the sets of all others, and so on until the multimap is empty: if no task waits for itself, directly or through others, the result has every task exactly once, after all it waits for; if one does, the program finds no task to take before the multimap is empty. Nothing is undefined as long as the capacities are not smaller than the tasks and the numbers of those that one waits for. With erase(k, v) instead of erasing from the sets, tasks are lost.", "quantifier": "every set of tasks and dependencies, declared in any order and repeatedly, every capacity that is large enough", "why_tests_cant": "the graphs are unbounded, and which entry is moved when one is erased depends on the history; the tests erase from multimaps of a few entries", "anchors": ["include/stdx/cx_multimap.hpp: insert, erase, begin, end, empty", "include/stdx/cx_set.hpp: erase, empty", "include/stdx/cx_vector.hpp: push_back"]}
{"id": "C159", "title": "Sequence lock", "statement": "One thread changes several words, stdx::atomics, between two stores to an atomic number, which is odd while it does so; any threads read the number, the words, and the number again. If a reader finds the same even number twice, all the words are those that the writer had left between two of its writes, not some of one write and some of another; a write whose end happens before the reader begins is seen; and a reading that begins after another has ended does not find older words. The stores of words and the second store of the number release, the loads of words and the first load of the number acquire; the other two may have any order. With relaxed stores of the words a reader may find words that were never there together.", "quantifier": "every number of words, writes and readers, every execution that the memory orders allow, every width of the number, wrapping around included if it does not go all the way round while a reader reads", "why_tests_cant": "torn words need a weak memory order and a write in the middle of a reading; the tests of atomic have one thread", "anchors": ["include/stdx/atomic.hpp: load, store, operator="]}
{"id": "C160", "title": "Initialised once", "statement": "Threads that share data which the first of them initialises: each calls exchange on one atomic, the one that gets 0 initialises the data and stores to a second atomic with an order that releases; a thread uses the data only after it has initialised it or has loaded something other than 0 from the second atomic with an order that acquires. However many threads there are, exactly one gets 0 as soon as any has called exchange, with any memory order; what it has written happens before everything the others do with the data; and there is no data race. If the store is relaxed there can be one.", "quantifier": "every number of threads, every sequence of their calls, every execution that the memory orders allow", "why_tests_cant": "the race needs a weak memory order and several threads; the tests of atomic have one thread", "anchors": ["include/stdx/atomic.hpp: exchange, load, store, operator="]}
{"id": "C161", "title": "Latch", "statement": "An atomic that is N at first, counted down once by each of N threads with an order that releases (fetch_sub, -=, or -- where it releases): a thread that loads 0 with an order that acquires comes after all of them. Each has then counted down, and all that it had done before happens before all that the waiting thread does from then on; so what each of the threads has written before can be read without a data race, however many wait. Conversely, with any orders, a load that sees the arrivals of all N returns 0. With relaxed order there can be a race.", "quantifier": "every number of threads below 2^w, any number of waiting threads, every order in which they arrive, every execution that the memory orders allow", "why_tests_cant": "the race needs a weak memory order and several threads, and the guarantee goes through a chain of read-modify-writes of unbounded length; the tests of atomic have one thread", "anchors": ["include/stdx/atomic.hpp: fetch_sub, operator-=, operator--, load"]}
{"id": "C162", "title": "Programs that name no memory order", "statement": "If the calls of all atomics and atomic bitsets that the threads share name no memory order, and the order that then applies is seq_cst, what the threads do is as if all calls, of all objects, were made one after the other, those of each thread in the order of the program: every call returns what it would return then. So programs may be understood as interleavings of their calls, which C38 and C40 assume. In particular, two threads that each store a flag and then load the flag of the other do not both find 0; with release and acquire they can.", "quantifier": "every number of threads, atomics and atomic bitsets, every sequence of calls, every execution that the language allows", "why_tests_cant": "it is about what no execution shows, on any processor; the tests of atomic and atomic_bitset have one thread", "anchors": ["include/stdx/atomic.hpp: load, store, operator=, exchange, fetch_add, fetch_sub, fetch_and, fetch_or, fetch_xor and the operators", "include/stdx/atomic_bitset.hpp: load, store, operator=, set, reset, flip, operator[], to, to_natural, all, any, none, count"]}
{"id": "C163", "title": "One flag per thread", "statement": "Threads that each have an atomic of their own as a flag: a thread that wants to use data stores something other than 0 in its flag, then loads the flags of all the others, and uses the data only if all of them were 0, until it stores to its flag again. If these stores and loads name no memory order, never do two threads use the data at the same time: of any two uses by different threads, one happens before the other, with a store of 0 by the first in between, whose order need only release. So there is no data race. If the flags are raised with release and loaded with acquire there can be one.", "quantifier": "every number of threads, every sequence of attempts by each, successful or not, every execution that the memory orders allow, whatever the flags are at first", "why_tests_cant": "the race needs two threads that raise their flags at the same time and a processor that delays stores; the tests of atomic have one thread", "anchors": ["include/stdx/atomic.hpp: load, store, operator="]}
{"id": "C164", "title": "Values, shrunk and expanded", "statement": "shrink(x) and expand(y) by value: if expand(shrink(x)) compiles, it is an object of the type of x, but for const, with the same content as x; so where content would be lost it does not compile. It does exactly for classes that are no unions, have no state and have a default constructor. expand leaves what is not shrunk alone: for an lvalue it returns a reference to the same object, otherwise a new object with its content.", "quantifier": "every type and content, shrunk any number of times", "why_tests_cant": "types are unbounded in number, and the test uses one empty class", "anchors": ["include/stdx/type_traits.hpp: shrink(x), expand(x)"]}
{"id": "C165", "title": "Peterson's lock", "statement": "Two threads, an atomic flag for each and an atomic turn: a thread that wants to use data stores something other than 0 in its flag, then stores the number of the other thread in turn, and uses the data once it has loaded 0 from the flag of the other or its own number from turn. If the stores and the loads of flags name no memory order, the loads of turn acquire and the stores that lower flags release, the two never use the data at the same time: of any two uses one happens before the other, so there is no data race. If all stores only release and all loads only acquire, there can be one. If both threads wait and see the same store to turn, one of them may go in.", "quantifier": "any number of times that each thread goes in, any number of loads while it waits, every execution that the memory orders allow, whatever the flags and turn are at first", "why_tests_cant": "the race needs two threads at the same time and a processor that delays stores; the tests of atomic have one thread", "anchors": ["include/stdx/atomic.hpp: load, store, operator="]}
{"id": "C166", "title": "Access by a constant index", "statement": "Elements of a cx_vector by index: v[i], v.get<I>() and get<I>(v) refer to the same element, the one at that place in the sequence; assignment through them replaces it, and is rejected for const vectors. All of them can be used in constant expressions. Where the index is constant, one that is no place in the vector is rejected.", "quantifier": "every capacity, history, index and element; lvalues, const lvalues and temporary objects; constant expressions and others", "why_tests_cant": "histories and indices are unbounded, and what must not compile, or must compile as a constant, is not in the tests: get is used twice, when the program runs", "anchors": ["include/stdx/cx_vector.hpp: operator[], get<I>()", "include/stdx/cx_vector.hpp: get<I>(v)"]}
{"id": "C167", "title": "Sizes in other units, as literals and objects", "statement": "n_zA->zB, for any integer literal n and any two of the units of 8, 16, 32 and 64 bits, is the least number of units B that hold n units A, and the same as sized<A>{n}.in<B>(), for const objects too; what is no integer literal, or does not fit, does not compile. Converting to bytes first makes no difference. Converting there and back gives the same number if the other unit is not larger, and otherwise at least as much, by less than one of the larger units.", "quantifier": "every integer literal, in every base, with any separators; every pair of units; every width of std::size_t from 5 bits", "why_tests_cant": "literals and sizes are unbounded in number and the tests have a few, all of temporary objects that are not const", "anchors": ["include/stdx/utility.hpp: sized, sized8, sized16, sized32, sized64, the literals _z8, _z16, _z32 and _z64"]}
{"id": "C168", "title": "Byterators and const", "statement": "A byterator that is const stays where it is, and one of const elements does not change them, in every program that compiles. All else compiles and does what it would do if nothing were const: a const byterator can be read through by *i, i[n], *(i + n) and peek, and assigned through if the elements are not const, with i[n] and *(i + n) the same byte.", "quantifier": "every storage, position, offset, size, byte order and sequence of expressions", "why_tests_cant": "that nothing can be changed is about all programs, and what must not compile is not in the tests", "anchors": ["include/stdx/byterator.hpp: operator*, operator[], operator+, operator+=, peek, read, write"]}
