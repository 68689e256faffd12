# Design of the formal model

Subject: the header-only C++ library in `/repo` (`include/stdx`), read as text. The model is in Lean 4
(`/verif/lean`), built with `lake build`.

## Trusted base

* Lean 4.33.0's kernel, and Mathlib only where a module is imported by name.
* Axioms: at most `propext`, `Classical.choice`, `Quot.sound`. No own axioms, no `sorry`, no `native_decide`,
  no `bv_decide`.
* The reading of the C++ text: nothing ties the Lean definitions to the compiled code except the file and line
  citations on each definition. The code is never run here.
* The C++ language rules the model encodes by hand: integral promotion to a 32-bit `int`, wrap-around of unsigned
  arithmetic, undefined behaviour of signed overflow, out-of-range shifts, null dereference and out-of-bounds access.
* Compiler builtins and the standard library (`std::sort`, `std::clamp`, `std::min`, `__builtin_clz`, ...) are
  taken to meet their documented contracts; where a property must hold for every permitted behaviour (an unstable
  sort, for instance) the theorem quantifies over all of them.
* The external `::atomic` library is taken to give each load, store and read-modify-write the guarantees of the
  language for one atomic object, whatever the memory order: one modification order, read-modify-writes that read the
  write just before them, and the four coherence rules (`Verif/Conc/Order.lean`). Every such execution is proved to end as
  some schedule of indivisible steps does (`Verif/Conc/OrderLemmas.lean`). What orders guarantee about *other* objects
  is the subject of C130, C138 and C149: the rules of synchronisation and happens-before for atomic objects and any other memory, without fences
  and without the single order of `seq_cst` operations on several objects.
  Only C162, C163 and C165 use that order; it is a hypothesis of theirs (`SingleOrder` in `Verif/SeqCst/Model.lean`), met by the executions in
  their examples.

## Conventions

* One directory per topic under `lean/Verif/`: `Model.lean` (definitions, each citing file and lines),
  `Spec.lean` where a separate specification is needed, `Lemmas.lean` (helper facts), `Props.lean` (the property
  theorems, with `example`s showing that the hypotheses are met by concrete non-trivial cases).
* `Outcome α` (`Verif/Base.lean`) has the constructors `ok`, `ub` (undefined behaviour) and `panic` (a panic handler
  that does not return was called). An operation whose precondition is violated returns `ub`, never a default value.
* Words of storage are `BitVec w` with `w` universally quantified wherever the code is generic in the word type.
* Template parameters, types and compile-time constants are ordinary Lean values; a tuple is a list of values (with
  its types as keys when an algorithm looks at types). `noexcept` (but for C140), `constexpr`-ness and
  destruction are not modelled; value categories only where moves, copies or references are the subject (C67, C70, C97, C101).
* Where the code as written contradicts a property, the negation is proved with a concrete witness (name suffix
  `_fails`/`_violated`) and the strongest true version is proved with the suffix `_partial`.

## Not modelled

Overload resolution and SFINAE beyond what is said per property (C116 models the choice between overloads that differ in
a priority tag), compile-time performance, lifetime and aliasing beyond the properties about references, iterators and
temporaries (C67, C70, C97, C101, C109, C115, C118, C120, C137), floating point, synchronisation beyond C110, C130, C138 and C149,
the wording of diagnostics, exceptions other than those of element copies (C117), of functions that are called (C45, C46, C139), of
comparisons (C140) and of panic handlers (C141). `STATIC_ASSERT` and
`STDX_PANIC` are modelled at the level of tokens (C111) and the detection of constant expressions by a small expression
language (C94). The macros of `pp_map.hpp` are modelled (C99) on top of the replacement rules of the preprocessor, which
are part of the trusted reading.

## Tests against wrong programs

`seeded/LOG.jsonl` has one line per attempt: the model was edited in a scratch copy like a realistic bug and rebuilt.
`lemmas_failed` are the declarations in which Lean reported errors. Modules that import a broken one are not built, and a proof
that uses a failed lemma is not available, so `theorems_failed` is computed: the property theorems that depend on a
failed declaration by the dependencies between the unedited proofs. "accepted at first" marks edits that every
theorem survived until it, or the model, was tightened; "accepted" with no claim broken marks edits that no property
can see. Edits that were caught only by an `example` count as accepted.

`seeded/AUTO.jsonl` lists in the same spirit the edits that were made mechanically (an operator, a constant, a condition or
a branch of one definition replaced), with the declarations that failed and, for those that survived, the verdict.

## Plan per property

| id | property | modelling and proof plan |
|---|---|---|
| C01 | bit_mask selects exactly the closed bit range | Model mask_bits_t, bitmask_subtract on `BitVec w` with the shift as an outcome that is `ub` at or beyond the promoted width; prove bit-extensional characterisation for all w. |
| C02 | bit_mask over arrays selects the closed bit range across word boundaries | Word list model of the array loop (pointer walk = list construction); prove the flattened bit characterisation by division lemmas, all w and lengths. |
| C03 | bit_pack and bit_unpack are mutually inverse | Each overload as BitVec shifts and ors as written; bit_unpack as to_be, split of object bytes per endianness, from_be each; prove both round-trips and the base-2^w numeral, for both endiannesses. |
| C04 | byte order conversions store the requested order | Object representation = list of bytes under an endianness parameter; byteswap = reverse of the byte list; prove order theorems for any byte count. |
| C05 | bit_destructure partitions the bits of a value | Model shifts<> table and shift_extract threading the mutated value; induction over the list of offsets. A first split point of zero does not compile (proved). |
| C06 | rotations move every bit by the same distance modulo the width | Model the C++17 fallback (gcc path with UB outcomes, clang builtin path); prove rotation for in-range amounts, negation witness for the UB amount. |
| C07 | bit counting and power-of-two rounding agree with arithmetic | Model the fallbacks over the builtins' documented meaning; bit_ceil/bit_floor with the 32-bit literal `1U`; prove for widths <= 32, negation witness for 64. |
| C08 | smallest_uint picks the least standard width that fits | Decision function over Nat; prove least-fit. |
| C09 | a bitset behaves as a subset of {0..N-1} under every history of operations | bitset = list of `BitVec w` words; each member function as written; refinement to `Nat -> Bool` restricted below N over operation lists. Junk above N breaks `>>`: negation + `_partial` with the exact invariant. |
| C10 | bitset equality and counts depend only on the bits below N | Extensional characterisation of ==, count, all, any, none on arbitrary storage contents. |
| C11 | bitset for_each visits the selected bits once each in ascending order | Loop model (peel lowest bit) over words; visited list = filter of range N. |
| C12 | bitset transform_reduce folds exactly the selected bits below N | Raw loop model; negation witness for `set()`; partial under clean upper bits. |
| C13 | lowest_unset returns the least clear position | Loop model; negation witness; partial for results below N and clean-representation cases. |
| C14 | bitset shifts translate the set of positions | Model the index loops for <<= and >>= incl. UB outcomes; prove per-bit law; negation for shift >= storage and for dirty bits. |
| C15 | bitset range set/reset change exactly the closed range | Model mask loop of set(lsb,msb); per-bit law; len=0 case separately. |
| C16 | bitset conversions round-trip | Model constructors and to<T>; per-bit laws; the word types and target types for which they do not compile or are undefined. |
| C17 | type_bitset addresses one independent bit per distinct type | Types = elements of a list with decidable equality; index lookups in unique/non-unique list; prove for duplicate-free lists, negation otherwise. |
| C18 | intrusive_list behaves as a sequence of nodes under every history | Heap of nodes (address -> prev,next option) + head/tail; refinement to a duplicate-free list of addresses via a doubly-linked-segment predicate; induction over histories; UB on null dereference. |
| C19 | intrusive lists do not disturb nodes they do not own | Frame lemma and interleaving theorem for both list models; for doubly linked lists also for histories with insert(end(), n) of nodes that left their list as its last. Under the unchecked policy insert(end(), n) with stale links lets one list change another (violation proved). |
| C20 | with checked nodes, removed nodes are reusable | Invariant: addresses not in any list have null links under the checked policy; no panics in membership-respecting histories. |
| C21 | checked policy reports pushing a node that is already linked | Decision theorem: panic iff some link non-null; members of lists of length >= 2 always detected (doubly linked); negation witness for singleton list / forward tail. |
| C22 | insert and remove edit the sequence at one point | Sequence-edit theorem for insert/remove; negation witness for insert at end under unchecked policy with stale next. |
| C23 | intrusive_forward_list behaves as a sequence of nodes under every history | Same method with single links. |
| C24 | cx_queue is FIFO with bounded capacity | Ring buffer model with the code's index updates; refinement to a list queue. |
| C25 | cx_queue over/underflow is always reported by the safe policy | Policy and handler as parameters (returning or not); theorem on reachable states; behaviour under a returning handler stated separately. With the default handler, which returns, it is false (proved): a push on a full queue overwrites an element. |
| C26 | cx_vector behaves as a bounded sequence | Array + size; refinement to List; UB outcomes for overflow/underflow/out of range. |
| C27 | cx_vector equality is sequence equality | Model the comparison loop; iff theorem. |
| C28 | cx_map behaves as a finite partial function | Vector-of-pairs model with linear search, swap-with-last erase; refinement to partial functions. |
| C29 | cx_set behaves as a finite set | Same for sets, incl. merge. |
| C30 | cx_set and cx_map built from a list of initial elements are sets and maps | Constructor without deduplication: negation witness, partial for duplicate-free lists. |
| C31 | cx_multimap behaves as a relation with a key set | Map of sets; refinement; negation for erase(k,absent) on key with empty set. |
| C32 | rollover_t arithmetic is arithmetic modulo 2^W | Promotion-aware arithmetic with UB on signed overflow; prove mod 2^W; negation for 16-bit multiplication. rollover_t<bool> with conversion by comparison with zero; negation for true + true. |
| C33 | cmp_less orders any half-range window | Windows as base + offsets; strict order theorem. |
| C34 | cmp_less characterisation | Characterisation in Nat distance + counting. |
| C35 | byterator writes and reads are inverse and local | Byte memory with bounds (UB outside), peek/read/write as byte copies; induction over sequences. |
| C36 | advance_to_alignment moves to the next aligned address | Arithmetic on addresses with masks; power-of-two sizes; negation for others. |
| C37 | byterator is a lawful random access iterator | Integer position laws. |
| C38 | concurrent atomic_bitset updates are never lost | Interleaving semantics: thread programs, schedule relation/merge of lists; per-bit theorem by induction over the merged trace. For weaker memory orders: executions constrained only by the modification order and the coherence rules of one object; each is shown to end as a schedule does, by taking back the last access. |
| C39 | atomic_bitset set acts as a test-and-set | Induction over traces; transferred to every memory order as in C38. |
| C40 | atomic counters hand out distinct tickets | Induction over traces with BitVec counter; transferred to every memory order as in C38. |
| C41 | atomic_bitset only exposes bits below N | Invariant-free theorem: all observers mask; per-observer lemma. |
| C42 | optional implements std::optional on values other than the tombstone | Value + tombstone model; refinement to Option; laws; negation when f returns tombstone. Initialisation with braces and with parentheses as two functions of the arguments, compared with std::optional, which uses parentheses; the constraint of the assignment operator as a predicate on types; lifetime as a state of the member, over histories of emplace and reset that may throw. Refuted: assignment of a class value, o = {} for scalars, vector-like types, narrowing, o.emplace(*o), exceptions. The sort of the result type of transform (plain, aggregate, made from the wrapper) as data; refuted for aggregates, which braces do not initialise by conversion, and for types such as std::any. |
| C43 | optional comparison is a total order with nullopt least | Order laws by cases. |
| C44 | n-ary optional transform is engaged iff all arguments are | List-arity model with call count; the kinds of the arguments and the sort of the result type as data. Refuted: a function that returns the tombstone or an aggregate, no arguments, and arguments of both kinds. |
| C45 | latched computes at most once | State machine with stateful generator (state-passing function) and call log; a second one with the way the value is initialised as data. Refuted for value types such as std::any, whose constructor takes the wrapper of the function. |
| C46 | cached recomputes exactly once per reset or refresh epoch | Same as C45. |
| C47 | transform, for_each and their _n forms apply the operation to corresponding elements in order | Iterators as suffix positions in lists; loops as recursion; call log. The least value of a signed count type of at least 32 bits is proved undefined. |
| C48 | for_each_butlastn omits exactly the last n elements | Two loop models; equality theorem. Refuted for counts above the largest ptrdiff_t and, in Verif/Adl, for iterators and operations of the standard library. |
| C49 | initial_medial_final classifies each element | Loop model; characterisation. Refuted in Verif/Adl for random access iterators of the standard library. |
| C50 | transform_reduce is the left fold of the transformed elements | Loop models with Int count; negation for negative n (run-away = ub). |
| C51 | saturate_cast clamps to the target range | Integer types as (signed,width); the clamp in the common type as written; full decision theorem; negation witnesses. |
| C52 | span first/last/subspan are views of the right elements | Span = base,offset,size over a list; sublist theorems; UB outside preconditions. Requests beyond the span, and the static forms on spans of dynamic extent, are not checked (proved). |
| C53 | span conversions preserve the viewed elements and size | Constructor models; negation for unchecked static conversion. |
| C54 | ct_string concatenation is string concatenation and keeps the terminator invariant | Char array with terminator; list theorems. A character array without a terminator is accepted and is not a string of its characters (proved). |
| C55 | split cuts at the first occurrence | find/split model scanning all stored characters; theorem; NUL case. |
| C56 | ct_format consumes one argument per replacement field | Parser model of find_spec/count_specifiers/split_specifiers over char lists; substitution theorem. |
| C57 | nested format results compose | format_result composition model; associativity / collapse theorem with named-arg offsets. |
| C58 | freestanding integer formatting prints the numeral | Digit loop with fuel-free well-founded recursion; numeral parse-back theorem, length theorem. |
| C59 | tuple folds and join | Value-list model of fold/join. A function object that changes its own members does not see its changes (proved): it is copied for each step. |
| C60 | tuple comparison is lexicographic | Recursive comparison model; Lex theorem. |
| C61 | tuple_cat concatenates | fill_inner/outer index tables modelled; gather equals List.flatten. |
| C62 | filter keeps exactly the satisfying elements in order | Index sequence model; equals List.filter. |
| C63 | tuple transform/for_each/enumerate zip to the shortest input | Zip model. |
| C64 | all_of/any_of/none_of short-circuit and obey De Morgan | Fold with early exit and call log. |
| C65 | chunk_by splits into maximal runs | count_chunks/create_chunks loops; run decomposition theorem. |
| C66 | sort and gather_by group by key | Any sorting function that returns an ordered permutation; partition theorem. |
| C67 | cartesian_product enumerates all combinations lexicographically | Recursive model; equality with List product, nodup and order. Refuted for rvalues and, in Verif/Adl, for elements of types of the standard library. |
| C68 | unique and the set conversions | Models via chunk/unique; theorems. to_unsorted_set also with the arguments of the template (Tuple/Sets), because it looks its elements up among them: for tuples with index functions it takes the wrong ones, refuted. |
| C69 | environment queries prefer the innermost binding | Association list of bindings; precedence theorems. False (proved) for hand-written environment types with one key twice, and for queries by types that convert to two keys. |
| C70 | call_by_need picks the documented call and loses no argument | Search loops over an arbitrary invocability relation; first-match and partition theorem. Refuted for functions given as an lvalue (tuple_size_v of a reference type is 0) and for rvalue arguments wanted twice. |
| C71 | type_map lookup is a partial function with default | Overload resolution on base classes = unique match; ambiguity is an outcome. |
| C72 | integer literals parse to the value the language gives them | Digit fold with BitVec accumulator; numeral theorem. A literal that does not fit a signed type of at least 32 bits does not compile (proved). |
| C73 | sized conversions allocate exactly enough | Nat arithmetic with size_t wrap; exact for dividing sizes, negation otherwise. |
| C74 | is_aligned_with decides divisibility by the alignment | Mask arithmetic; iff theorem for powers of two. |
| C75 | for_each_n_args calls with consecutive batches | Row/column index model; flatten theorem. |
| C76 | bind_front and bind_back place bound arguments | List-argument model, with value categories and references as results; which functions can be bound as a decision, compared with the standard functions. |
| C77 | forward list: a node that left a list can be pushed again | Invariant over histories: nodes outside every list have null links. |
| C78 | forward list: pushing a member node is detected | Linked members are detected; the last node is not (negation proved). |
| C79 | the string of a format result is a format string for its arguments | The result is shown to be a rendering of well-formed segments, compositionally over results. Runtime arguments that are stdx::tuples are a case of their own: tuple{arg} copies them, which breaks the claim. |
| C80 | unit and bit literals have the written value | Modular arithmetic of the literal operators; exact up to the range, wrapping beyond it proved. |
| C81 | counting_iterator counts and satisfies the random access laws | Integer types as signedness and width, with promotion and overflow; the distance between unsigned iterators in reverse order is refuted. |
| C82 | tuple access by index and by type | Types as an arbitrary set with index functions on it; overload resolution as a filter. |
| C83 | type names and templates | The string functions on an arbitrary text of the assumed shape; names with `=` and member types of specialisations refuted. |
| C84 | enumerator names | As C83; scopes with a `)` not followed by `:` refuted. |
| C85 | forward_like is std::forward_like | The finite table of qualifications, completely; lvalue arguments refuted. |
| C86 | arity_v | Function types with parameters by qualification, of which an argument that converts to everything by value reaches all but lvalue references to non-const; for generic functions acceptance of n arguments as an arbitrary predicate; the recursion finds the least. |
| C87 | function_traits decomposes every function type | Function types as an inductive type (function, pointer, member, class with call operator, generic, reference); one specialisation for each qualification as in the code; noexcept and references to functions have none, proved. |
| C88 | is_specialization_of_v | Types as an inductive type (void, scalars, classes with the template they specialise, arrays, functions, references, each with cv); the trait as in the code through `U &`; void and volatile refuted. |
| C89 | is_function_v, is_function_object_v, is_callable_v | As C88, with the standard traits the code uses; final classes and unions refuted. |
| C90 | shrink and expand are inverse | As C88, with shrunk types as types; what a function can return decides; qualified scalars, arrays and functions refuted. |
| C91 | traversal of type and value lists | Lists as deduced by the partial specialisations; a function with side effects as a state function. stdx::make_integer_sequence<T, N> fits the specialisation for std::integer_sequence<T, Vs...> with the one value N: refuted for every N. |
| C92 | make_array | Conversions as an arbitrary partial function, then integers with narrowing and the usual arithmetic conversions; mixed signedness refuted. |
| C93 | as_unsigned and as_signed | Integers of arbitrary width. |
| C94 | CT_WRAP and CX_WRAP | The decision logic of the macros over the properties of an expression they ask about; CT_WRAP of a non-constant expression that captures nothing refuted. |
| C95 | product types have tombstones iff their components do | Types as a nested inductive type; std::array refuted. |
| C96 | transform and and_then unpack if necessary | The decision which call is made, over what overload resolution and the return type of apply depend on; tuples for functions that take them whole, types std::apply is found for, arrays and the free function (documented) refuted. |
| C97 | element access preserves the value category of the tuple | Types as object types with const and references, collapsing included; elements as places; overload resolution among the const &, & and && accessors; const rvalues refuted; the documented removal from the candidates refuted, since the result types are deduced from bodies with a static_assert. |
| C98 | structured bindings name the elements of a tuple | The language's rule for tuple-like structured bindings on top of the model of get; elements that are const or refer to const objects refuted. |
| C99 | STDX_MAP applies f to every argument | The macros as data, run by a model of macro replacement (arguments first, rescanning with the rest, names not replaced within their own replacement); as a relation with derived rules. One scan of the text is one step of the map; the nesting of STDX_EVAL and the macros around it scan it 368 times, by composition. 368 and more arguments, and arguments (a)(b)(), refuted. |
| C100 | an argument of ct_format is formatted by what it denotes | The forms an argument can take as an inductive type closed under CX_VALUE; the overloads of arg_value by recursion; all branches of format1; the whole call shown equal to the call of the model of C56 on what the arguments stand for, which is a relation of its own. A runtime argument that is a tuple is not kept as an argument (proved). |
| C101 | building tuples keeps types and moves only from rvalues | The types of C97, with arrays and functions; template arguments as lists, so that adding a type to them and instantiating the template is modelled; initialisation as copying, moving, binding. Arrays and functions, and indexed tuples, refuted for tuple_cons (and filter). Sorting and grouping as picking elements by a list of indices. |
| C102 | reverse traversal visits the elements from the last to the first | Iterators as positions with their types; the conversions of the return statements as partial functions, with the explicit constructor of std::reverse_iterator; the loop by induction on the number of elements. The members of cx_vector are refuted: they do not compile. |
| C103 | copies of latched and cached values are independent | A pool of objects with shared function state; each object denotes the list of the member functions called on it and its ancestors with their places in the whole history; refinement by induction on the history. |
| C104 | for_each and enumerate give back the function object | Ways to pass the function object, and what its type can do, as data; `return op` by parameter and by captured copy as two functions; the calls are those of C63 and C11. Refuted for for_each over exactly one tuple: lvalues and types that cannot be copied. |
| C105 | tuple algorithms work on everything that is like a tuple, and nothing else | Kinds of arguments with their elements; the concepts as predicates with a parameter for whether std::size_t is unsigned int; class templates rebuilt from results as a partial function. Refuted: targets where size_t is unsigned int accept anything; transform and filter with an array, span, sequence, indexed tuple or (mostly) pair first; get outside an integer sequence. |
| C106 | a span is made only of the elements of an array of its type | Sources as data (kind, element type, constness, category); overload resolution as choosing the candidate of least rank; class hierarchies as an arbitrary relation; an element that is not in an array of the span's type is reached only at index 0. Refuted: derived classes, ranges that are not contiguous, and the check of arrays when const is added or the array is an rvalue. |
| C107 | intrusive list objects can be copied, moved and swapped | Copies and moves added to the histories of the list models: they copy the two pointers. Specification: per list object an optional sequence, absent when the object may not be used; refinement by induction over histories where one of the two objects is used afterwards. Violations proved for every reachable state: the source of a copy or move keeps its nodes, popping from one object leaves the other with the popped node alone, and overwriting a list that holds nodes leaves them linked, so adding them panics. |
| C108 | with_result_of calls its function exactly where it is converted | Callables with a constant and a non-constant call operator, own members and an outside; programs over numbered wrappers. Specification: an inductive relation for the same programs with plain function objects that are called where the wrappers are converted; refinement by induction over the program. Refuted: function pointers and final classes, constant wrappers of mutable callables, types with a constructor for anything. |
| C109 | safe_identity, unary_plus and dereference do what their operators do | Arguments with value category, constness and an object in a store; temporaries die at the end of the full-expression and reading through a reference to a dead object is undefined. Case analysis over categories and copy/move abilities; integer promotion over all widths and values. Refuted: immovable temporaries; likeness to std::negate. |
| C110 | latched and cached values stay single under re-entry, threads and writes | Functions as trees of questions to and accesses of their own object, run with a depth bound; reduction to C45/C46 for functions without accesses, and a lower bound of two calls, or no end, for the others. Threads as programs of reads and writes of the flag and the value with a trace; invariants over all schedules: no write once a value is held, a race in every complete execution otherwise; every thread that is not at its end can take a step, and executions have at most five steps for each operation. Writes through refresh() as an operation. |
| C111 | STATIC_ASSERT compiles exactly if its condition is true | The macro at the level of tokens: the preprocessor's split at commas and the compiler's search for the > that ends the template argument list. Specification: the condition as a tree of brackets with the value of its text. Induction over the tree; refuted for > and >> outside brackets and for commas inside brackets other than parentheses. (The example of docs/static_assert.adoc passes the type std::is_integral<T> as condition, which does not compile either.) |
| C112 | a panic is one call of the handler with the message and the arguments | The calls of the handler as a list; pasting to the last token of the message; arguments with storage duration and category. Refuted for local variables and messages that are not literals. |
| C113 | ct_string and cts_t can be mixed | Expressions as trees, the operators by the kinds of their operands on the C54 model; induction over expressions; acceptance exactly. Refuted: comparing the two kinds. |
| C114 | is_complete_v and is_structural_v | Translation units as lists of definitions and uses with the memory of instantiated variable templates; induction over the list. Types with constructors over numbered types; try_construct as a recursion over the number of arguments and the depth; its success is characterised by an inductive predicate. Refuted: types completed later; overloaded, long, non-constexpr and mutually dependent constructors. |
| C115 | references into the fixed-capacity containers | A reference is the index of an element of the array, which stays valid memory. Inductive statements over histories of the C01–C04 models about the slot; loops over iterators as operations of a history, with refinement of sets and maps; arguments by index, re-read after the container has changed, equal to the calls by value. Refuted: references to the last element when another one is erased; keys and set elements written through iterators. |
| C116 | overload selection with priority_t | The chain of base classes with the distance of a conversion, and the ranking part of overload resolution with the other rules as an arbitrary relation; induction over the chain, then order reasoning over arbitrary candidate lists. Refuted if the conversions of the other arguments differ. |
| C117 | containers of elements whose copies throw | The operations of C01–C05 with a parameter that tells what an assignment that throws leaves behind, and equal to them without it. Refinement of vectors over histories with throwing operations. Refuted for every operation, for every state; for queues with a history that leads to undefined behaviour for every capacity. |
| C118 | References from a counting_iterator are to elements, not to the iterator | Iterators as objects with a lifetime in a store, references as the object whose member they refer to. Induction over histories: the value read is the start plus the moves. Refuted for every iterator: references after moves, after destruction, from temporaries, of equal iterators, through std::reverse_iterator, and writes. |
| C119 | an atomic of any type behaves as a variable of that type, whatever it is stored as | Types by kind (integer, bool, enumeration, pointer, class) with the conversions between them; each member function of atomic as a program over the stored word, or absent if a conversion it uses does not exist. Linearisation as for C40 with the stored word abstracted to T. Refuted: exchange of enumerations and everything for pointers stored as integers, subtraction after addition for bool. |
| C120 | iterators of intrusive lists while the lists change | Iterators as variables holding a node pointer, next to any number of list objects over one heap; refinement of every history to sequences and positions with the representation invariant of C18/C23. Loops with arbitrary bodies as a relation on the sequences, instantiated to removal and to moving to another list. What a loop that advances after a removal does is determined for both policies. First without insert(end(), n) on a non-empty list under the unchecked policy, then with it for the nodes for which it appends (C22 has the exact condition). |
| C121 | keys that are equivalent but not identical | The models of cx_map and cx_set with an arbitrary Boolean == (type class BEq). Specification: a function from keys to the stored entry that respects the equivalence. Refinement by induction over histories with pairwise inequivalent stored keys as invariant. For keys not equal to themselves the result of any number of insertions is determined without assumptions on ==. |
| C122 | CX_VALUE tells types from values | A fragment of C++ texts of any depth (names, literals, pointers, templates with type arguments, calls, braces, parentheses, sums, commas), with the readings as a type and as an expression as functions in the model and as inductive relations in the specification; a text with both readings is a type. Mutual induction over texts: the two readings coincide exactly for T(), T(U()), .... Refuted for those texts. |
| C123 | Removing nodes that are not in the list | The model of intrusive_list in which any number of lists share the nodes. From every state that a history of permitted operations reaches, one remove of a node in another list or in none; the effects on all lists are derived from the invariant of C02 (each list is linked both ways, lists are disjoint). The node in the middle of a list: proved. First and last nodes of other lists and nodes in no list: refuted, for every such state. |
| C124 | Moves of latched and cached objects | The pool of latched or cached objects of C103 with move construction and move assignment; `moved a` is what a move leaves of the value a, arbitrary. Simulation between the history with moves and the history with copies, relating all objects that have not been moved from; refuted for accesses to moved-from objects, in every state. |
| C125 | Algorithms work for the types of every library | Argument-dependent lookup and overload resolution as functions on types (associated namespaces) and function templates (number of parameters, pack). The three algorithms with the choice of the callee made explicit; equal to the models of C48, C49 and C67 when the library's own function is chosen, refuted for every type related to the standard library. |
| C126 | Only tuples that correspond element by element can be compared | Overload resolution among the comparison operators of the base classes of both operands, over arbitrary lists of element types; for each choice the comparison of C60 or of one element. Refuted for tuples that are not comparable but have exactly one element in common. |
| C127 | rollover_t types have a common type | Integer types with conversion ranks and widths of an arbitrary platform, the promotions and usual arithmetic conversions, the two specialisations, and the conversion of durations with the multiplication of C32. Refuted for two different types narrower than int, and for an integer type in the first place. |
| C128 | Capacity known at compile time | Modelled in `Verif/Capacity`: types by shape, qualifiers and reference, the partial specialisations of `ct_capacity_v` with matching and partial ordering, `ct_capacity`. Proved by cases for `ct_capacity`; for the containers by an invariant over any sequence of insertions into the models of C26 to C31, so the constant is tied to what insertion accepts. Violated for `ct_capacity_v` of a const array (two specialisations match) and of volatile containers. Not modelled: whether the argument of the `consteval` function is a constant expression. |
| C129 | Types deduced from initialisers | Modelled in `Verif/Deduce`: types (containers, tuples, classes derived from them, others), the copy deduction candidate of the language and the guides of the library, the choice between them, and then the constructor or aggregate initialisation, for any conversions between types. For spans the guides on top of the sources and constructors of C106. Proved by induction on the arguments and by cases on guides. Violated: arguments that change when converted to the type of the first, a single argument that is of the template itself (it is copied), spans of const temporaries. Not modelled: `cx_map` (its type cannot be deduced), `span{first, last}`, `indexed_tuple`, rvalue built-in arrays. |
| C130 | Publication, locks and reference counts through atomics | Modelled in `Verif/Sync`: the programs of C38 to C41 once more with kind and order of each access, executions as the calls the threads have made with their results and accesses (same rules for one object as `Verif.Conc.Order`), synchronisation through release sequences of C++20, happens-before. That each member function makes one access with the right order, by cases; publication by induction on the modification order; locks by an invariant over it (at most one taking call is not yet matched by a clearing call, none if the position is clear); reference counts by computing the value at each place of it. Orders a function does not allow are undefined, and exactly which ones is proved. Two theorems show that the hypotheses are needed: with relaxed orders, or when somebody stores the set back, nothing is published. Synchronisation through several objects and fences is not modelled; each adds guarantees only. |
| C131 | Traversing a bitset while the callback changes it | Modelled in `Verif/Bitset/Live.lean`: the traversals of C11 and C12 with each word read from the memory as it is when the loop comes to it; the function is any function on that memory. By induction on the words: the calls are those for the bits found before the first call in the same word or a later one, an equation that determines them. The statements of the property follow from it. Violated: which changes ahead of the traversal are seen depends on the storage type (a change in the current word is not seen, one in a later word is), proved for every pair of storage types of which one holds the bitset in one word and the other does not. An empty bitset is C11. Not modelled: functions that throw or end the lifetime of the bitset. |
| C132 | Loops that change the container they iterate over | Modelled in `Verif/Loops`: the loops of the language over the arrays of C26 to C30 (an iterator is an index, all elements of the array exist), each returning also what its body was given; bodies are arbitrary functions with a state, or use the models of `insert` and `erase`. By induction on the elements left. The range-based `for` that erases what it visits: the places ahead of the loop never change, and the elements left are a permutation of those kept and those ahead. The closure under insertion: an invariant on the places the iterator has passed, against an inductively defined reachability. Violated: bodies that erase other elements, or erase and insert; elements that are gone are visited; `++it` after erasing in a loop that calls `end()` every turn is undefined if the last element is erased. Not modelled: bodies that use a reference to the element after erasing (see C115) or throw. |
| C133 | Moving optionals | Modelled in `Verif/Optional/Moves.lean`: the implicit memberwise moves of the optional, for a value type given with what its moves leave behind. Proved by refinement, by induction on the history, against a specification in which each optional is empty, holds a value or was moved from, under the hypothesis that moving from a tombstone leaves a tombstone. Violated for every type without it (a string with a tombstone that is not empty): an empty optional that is moved from has a value afterwards. Not modelled: moves that throw. |
| C134 | Messages between hosts | Modelled in `Verif/Message`: the programs a user writes with the byterator of C35 and C36 and the conversions of C04. By induction on the fields: what the storage contains after writing (an equation for every byte, padding unchanged), undefined exactly if the message does not fit; reading from storage that contains a message; moving the bytes to another address. Violated for aligned fields if the two addresses differ modulo the alignment, since padding depends on the address: proved with the number that is then read. Conversions that are left out give the reversed bytes (proved). Only fields whose size is a power of two, see C36. |
| C135 | An atomic_bitset used by one thread is a bitset | Modelled in `Verif/AtomicBitset/Single.lean`: the programs of C38 to C41 run without interference, beside the bitset of C09 to C16, with one list of calls given to both. Proved by refinement: both answer as a set of positions does, by induction on the calls. That nothing is held at or above the size is an invariant of the cell over all schedules (`Verif.Conc.Lin`). Violated: size() is the number of elements for one and the capacity for the other; to with a result narrower than a storage word compiles only for the atomic one. Calls that only one of the two has (flip of ranges, bitwise operators) are C09 and C38. |
| C136 | Equal values are interchangeable | Modelled in `Verif/Equal`: programs over any number of variables of one bitset type, with all members and operators of C09 to C16; and the histories of C26. Proved by a simulation: equality (as `==` computes it) of all variables is kept by every statement, and the answers agree. Violated, for every size that does not fill whole words, by the right shift, lowest_unset and transform_reduce, and for vectors by resize_and_overwrite, which uncovers elements left in the storage (all proved); for sizes that fill whole words the bitset part is proved without exception. |
| C137 | Spans of vectors while the vectors change | Modelled in `Verif/Views`: programs over any number of vectors (C26) and spans of them (C52, C53), a span pointing into the storage of its vector. Specification: vectors are lists, a span is a vector, a position and a count. Proved by refinement and induction on the program, with what a span says beyond the end of its vector left open. Violated: a span does not notice removals, and shows popped and cleared elements without undefined behaviour, for every reachable state; extents greater than the number of elements are accepted (both proved). |
| C138 | Data shared by means of several atomics | Modelled in `Verif/Sync/Many.lean`: events of threads are calls of any of the objects of the program (as C130) or plain accesses; for each object the calls of it are a history as in C130; happens-before is over all events. The theorems of C130 are carried over by projecting events on one object and embedding its happens-before; chains of hand-overs by induction. Rules of the language that relate several objects only exclude executions and are left out, and the total order of seq_cst is not used. |
| C139 | Functions that throw | Modelled in `Verif/Unwind`: the algorithms again, now with functions that give a result or an exception and change a world that outlives the call; iterators, copies and moves do not throw. Specification: `Runs`, steps taken in order until one throws (shown to be total and deterministic). Proved by induction on the loops; for bitsets by simulation with the model of C11 and C12, with a state that an exception freezes. Undefined for `bitset<0>` (C11); transform_reduce of a bitset visits stored bits outside its size (C12). |
| C140 | Comparisons that throw | Modelled in `Verif/Judge`: the calls again, with comparisons that give an answer or an exception and change a world. `Truthful` says that a comparison that returns gives the answer of `==`. `Sim` relates a call to the model with comparisons that return (C29 to C31): same effect if it returns, container unchanged (or the part named) if it throws, undefined only if that is; `Took` tells which operations of a history have had an effect. Proved by induction on the loops and the history. Violated: `cx_multimap::erase(k, v)` compares keys again after it has erased the value; `has_value()` and `operator bool` of an optional are `noexcept`, so an exception of `==` ends the program. Copies and assignments do not throw here (C117). |
| C141 | Panic handlers that throw | Modelled in `Verif/Caught`: the calls of C24 to C26, C18 to C23 again, with a handler that changes a world and returns or throws each time. That a thrown exception leaves everything as it was is proved for all states, reachable or not; the histories by simulation with the earlier models (`step_refines`, `step_panics`, `stepW_ok`). What the lists do not notice (the only member of a list, the last node of a forward list) is no refused call here; see C21 and C78. |
| C142 | Panic handlers that repair | Modelled in `Verif/Caught`: what `STDX_PANIC` does is any function of the objects and a world; `qRepairs`, `lRepairs` and `fRepairs` are handlers that make calls. That the misused call is the same call on what the handler leaves is proved for all states; the histories by induction with `queueRepaired`, `ListRepaired` and `FwdRepaired`, which put the calls of the handler in front of the misused one; the ring buffer by induction on the elements. `C142_insert_emptied_fails` shows why iterators have to stay valid: `insert` asks whether the list is empty before the handler runs. That the handler panics itself is not modelled. |
| C143 | Timers | Modelled in `Verif/Timers`: a client's program over the models of the list (C18) and of rollover_t (C32 to C34). Specification: pending timers with integer times in the order of scheduling; `Expired` says what a call takes out. Invariant: the list is sorted by true time, and for each time holds the pending timers in order of scheduling. Proved by induction on the list for the loops and on the history. The two `_fails` theorems show that the distances cannot be extended, for every width. |
| C144 | Ready queues | Modelled in `Verif/Ready`: a client's program over the models of the lists (C18) and of bitset (C09, C13). Specification: `Step` over one list of tasks in the order in which they became ready (`next_total`: it always has an answer). Invariant: each list is the tasks of its priority, the bitset the priorities without tasks; what is stored above the size stays open. Proved by induction on the history. |
| C145 | Identifiers | Modelled in `Verif/Ids`: a client's program over the model of bitset. Specification: `Step` over predicates (`step_total`: it always has an answer). Invariant: the positions below N are the identifiers in use; nothing is said of bits above, as `set()` and `flip()` set them (C13). Proved by induction on the history. |
| C146 | Caches | Modelled in `Verif/Lru`: a client's program over the models of cx_map (C28) and of the lists (C18). Specification: `answer`, a list of entries, most recently used first, cut off after N. Invariant: the nodes in use, in order, have the entries as members, and the map is exactly key to node. Proved by induction on the history; `C146_kept` and `C146_dropped` by induction on the commands in between. |
| C147 | Breadth-first search | Modelled in `Verif/Search`: a client's program over the models of bitset (C09 to C13) and of cx_queue (C24). Specification: `Walk`, walks of a number of edges, and `Graph`, which says nothing of bits above N. Invariant: the nodes popped and those in the queue are sorted by distance, without repetition, and are all nodes within distance d; nodes popped have their successors among them. Proved by induction on the fuel of the loop, which N + 1 suffices for. |
| C148 | Identifiers shared by threads | Modelled in `Verif/Shared`: a client's program over the model of atomic_bitset (C38) and of bitset, as programs of atomic steps whose next step depends on what was read. Specification: `History`, a list of results one after the other with the owner of each identifier, and `Replies`, what a thread gets for its commands. Invariant: each thread is before a load, a set or a reset, with the number of acquisitions by others since its last result bounding its tries from below. Proved by induction on the schedule; executions under any memory orders end as schedules do (C38). |
| C149 | Turns by tickets | Proved in `Verif/Sync/PropsTicket.lean` over the executions of C138. Specification: `HasTurn` and `TicketUse` say what a thread has done, in terms of calls and results only. The values of the first atomic count the calls that take tickets, so that no ticket is taken twice; a load that gives ticket k + 1 reads the store that ended the turn of ticket k. By induction on the later ticket every turn happens after all those before it. Two executions show what happens without the two conditions, one of them with 257 tickets of 8 bits. |
| C150 | Byterators of any sequence | Modelled in `Verif/Byterator/Blocks.lean`: pointers into one of several arrays, arithmetic and access as in C35 and C37 within an array, and the types of the expressions. Specification: byte numbers in the sequence (`flatten`), and `OneArray`. Proved by induction on the arrays and on the walk, for every way of spreading: defined exactly within one array. The requirements are decided by the declared types. False for sequences in several arrays (std::deque), for default construction, and for elements that are const (proved). |
| C151 | Overflow policies of one's own | Modelled in `Verif/Policy`: the functions of the queue with the policy as any function of the call, its arguments and a world of its own. Specification: `asked`, what the policy is asked before an operation of the abstract queue of C24, and `guarded`, which asks it first. Proved by simulation, by induction on the history; `Sound` policies make every history defined. Instances: a high-water mark, a reserve, and the policies of the library (the safe one is that of C141). |
| C152 | Overload sets | Modelled in `Verif/OverloadSet`: the call operators as members of one class, ranked as in C116 with the object as a further argument, and the states of the function objects. Specification: `Fits` and `Best` by quantifiers over the arguments. Proved for all sets; the rank of the object is the same for all functions if all are const or all are not. False if there are both (proved): lambda expressions that are mutable fit an object that is not const better than others, which makes calls ambiguous. |
| C153 | A queue shared by threads | Modelled in `Verif/Channel`: the executions of C138 and C149, in which operations on the queue of C24 are accesses to data that is not atomic; `Plain` is the rule of the language for such data in executions without data races (visible side effects, no cycles in happens-before). Specification: `Sequential`, a list of the operations in an order in which all results are those of a list of values, and `Fifo`, the k-th receiving operation gets what the k-th sending one sent and happens after it. Proved: without data races the operations are totally ordered by happens-before, so they can be sorted; induction along that order with the representation invariant of C24; the locks of C138 and C149 exclude data races. |
| C154 | A ring without locks | Modelled in `Verif/Ring`: the use of two atomics and the places, as conditions on the executions of C138 (`Use`, `Once`), and the program whose events meet them (`Program`, by induction on its calls); the places are data that is not atomic, as in C153. Specification: `Race` of C138, and lists of all sending and receiving accesses, of which the k-th correspond. Proved: the k-th change of a counter is the k-th in its modification order, as it has one writer (induction), so a load tells the number of changes it sees modulo the width; then by induction on the counts and coherence that the receiver never sees less sent than it has received, and that the sender never sees more than N not received; that it never sees more received than sent needs that happens-before has no cycles. Accesses to the same place then differ by a multiple of N and are ordered by a counter that was seen. A relaxed store gives a data race (a concrete execution). |
| C155 | Tickets that wrap around | The executions of C130 and C149, with the rule of [intro.races] that a call does not contradict what happens before it (Consistent), which C149 does not need. Positions in the modification orders replace the values, which repeat. By strong induction on the number of stores to the second atomic: the p-th store ends the turn of the p-th ticket, and whoever sees it has the next one; an older value would be a ticket 2^w earlier, so by the pigeonhole principle some thread has taken two tickets since and ended a turn between, which the acquiring and releasing tickets make visible. Then turns in order by induction on tickets as in C149. Programs: a relation of stages (idle, waiting, in turn) from which the use of the lock is derived by induction on the events of a thread. Two executions show that the conditions on orders and threads cannot be left out. |
| C156 | Concepts | A type is a name with qualifiers and a reference, a table says what its operators return and what can be done with that. The definitions of the header (used where the standard library has no concepts) are compared with those of the standard, which are the specification. Those with the standard's text word for word are left out. Disproved for operators that do not return bool itself and for references to objects that are not const. |
| C157 | Signals | The client's functions over the model of C38: each is one atomic step, whose result by C11 is the list of positions set and taken. Linearised by the lemma of C38; then by induction on the history a bit is set if and only if its signal is pending, which is specified by the commands alone. Nothing lost and nothing handled twice by induction on histories. For every execution under any memory orders by the lemma that gives a schedule for each execution (C148). For load and reset() a schedule of three steps is given for every position and every size. |
| C158 | Order of dependencies | The client's program over the models of the containers, with fuel for its loop. The declarations by the refinement of C31. The invariant of the loop: the keys are the tasks not put out, and each set has what its task waits for but for what was put out; erasing a key is a permutation of the entries without it. The loop ends since there is room for no more tasks. If no task is ready, each one waits for another: a finite relation without cycles is well-founded, so there is a cycle. An order gives positions that decrease along dependencies, so there is none. For the variant with erase(k, v) it is proved that after one turn no set is empty. |
| C159 | Sequence lock | The writer's program as steps over the executions of C138, readings by their loads. An atomic with one writer: the stores are its changes in program order, so a load finds what the first p of them left. If a reading finds p twice, acquiring what the p-th change of the number releases, all stores before it happen before the loads of words; and a load that finds a later store of a word acquires what follows the (p+1)-th change, which the second load of the number would then have found. For relaxed stores an execution is given. |
| C160 | Initialised once | The threads' program as steps over the executions of C138. By induction on what a thread has done: who initialises has won and has stored nothing yet, who uses the data has seen the store or is the winner. All exchanges leave something other than 0, so only the first in modification order returns 0. So the second atomic has one writer (lemma of C159) and one store, which a load that finds something other than 0 reads. For relaxed stores an execution is given. |
| C161 | Latch | Over the executions of C138. Each write of the atomic is an arrival, and different writes are arrivals of different threads, so there are at most N; after p writes the value is N - p by induction, so who reads 0 has read the N-th, and by counting all threads have arrived. The load synchronises with each arrival through the read-modify-writes in between. A load after the writes of N different threads is after N writes, so it returns N - N (C161_opens). For relaxed order an execution is given. |
| C162 | Programs that name no memory order | Over the executions of C138, with the rule of [atomics.order] for sequentially consistent calls as a hypothesis: one total order of them that agrees with each thread and with the coherence order of each object. By induction along this order: each object holds what the writes so far have left, since a call that read something older or newer would have to stand elsewhere in the order. The two flags by a cycle in the order; for release and acquire an execution is given. |
| C163 | One flag per thread | Over the executions of C138 with the total order of C162. Each flag has one writer (lemma of C159). Of two threads that are inside, if each had read the flag of the other as it was before it was raised, the four calls would be in a cycle of the total order. So one has read something later that is 0: a store of 0 by the other thread after it was inside, with which the load synchronises. For release and acquire an execution is given. |
| C164 | Values, shrunk and expanded | On top of the types of C90: expressions with a type, a category, an identity and a content; what the assertions of expand ask of a class is a parameter. By cases on the type. Arrays refuted: they fall through to the other overload. |
| C165 | Peterson's lock | Over the executions of C138 with the total order of C162, and with the lemma of C163: a thread that has read the flag of the other as 0 comes after the other, unless it raised its own flag first in the total order. If one has read its own number from turn, the other has stored it after its own store; if that store is the one with which the other went in, then the other can have gone in only by the flag, which in the total order comes too late; otherwise it is a later one, which releases. For release and acquire an execution is given. |
| C166 | Access by a constant index | On top of the vectors of C26: the three expressions with the kind of vector (lvalue, const, temporary), in a constant expression or not, with rejection by the compiler and undefined behaviour as outcomes. By cases, over the invariant of C26, so after every history. Refuted: get<I>(v) is not constexpr; a constant index from the size up to the capacity is accepted. |
| C167 | Sizes in other units, as literals and objects | On top of the parser of C72 and the conversion of C73, which for the four units is the least number whenever nothing wraps, since one of any two divides the other. There and back and by way of bytes from the uniqueness of the least number. Refuted: numbers and totals that do not fit compile and give too few, for all such literals; in() is not a const member function. |
| C168 | Byterators and const | On top of the byterators of C35 and C37: expressions with rejection by the compiler as an outcome, from the const member functions and the types of the references. Programs by induction over their expressions. Refuted: peek is not a const member function, and i[n] of a const byterator is a reference to const. |

## Where the code and a property disagree

Each is proved of the model, for all inputs the theorem names, and the property has a theorem for the remaining cases.

* **C30** The code does not remove duplicates given to the constructors: false with repeated elements (proved), true without. (`C30_cx_set_initial_fails`, `C30_cx_set_initial_size_fails`, `C30_cx_map_initial_fails`)
* **C31** erase(k, v) on a key with an empty value set returns 0 but removes the key (proved); everything else holds. (`C31_cx_multimap_erase_violated`, `C31_cx_multimap_erase_violated_witness`)
* **C18** All histories with the checked policy. With the unchecked policy, all those in which a node given to insert(end(), n) of a non-empty list was the last of its list when it left it (or has a null next from the start); for any other node the claim is false (C22_insert_end_exact). (`C18_empty_access_undefined`)
* **C19** Forward lists: all histories. Doubly linked lists: all histories with the checked policy; with the unchecked policy all those in which a node given to insert(end(), n) of a non-empty list was the last of its list when it left it (or has a null next from the start). A node inserted there with a stale link can, when removed, change a node of another list (proved). (`C19_interference_violated`)
* **C21** The only member of a list has null links and is not detected (proved). (`C21_sole_member_violated`)
* **C22** insert(end(), n) with the unchecked policy keeps a stale n->next: iteration goes on to the node n was followed by when it left its list (proved for every history, exactly when). (`C22_insert_end_violated`)
* **C23**  (`C23_empty_access_undefined`)
* **C78** The last node of a list has a null next link and is not detected (proved). (`C78_tail_repush_violated`)
* **C05** Proved for split points strictly between zero and the width. A first split point of zero is below the width but does not compile (proved), as do points that do not increase. (`C05_zero_split_violated`)
* **C06** On the clang path every amount but the least int. On the generic path some further amounts shift out of range. Rotating by the least int is undefined on both, as it is negated (proved). (`C06_rotl_undefined`, `C06_least_amount_undefined`)
* **C07** bit_floor and bit_ceil shift a 32-bit 1U and are undefined for large 64-bit values (proved); all the rest is proved. (`C07_bit_floor_wide_undefined`, `C07_bit_ceil_wide_undefined`)
* **C09** Every history built from constructors and operations. Right shift brings down bits stored above N after flip/~/all-setting operations: false there (proved); true without right shift of such a value, and always when N fills whole words. (`C09_bitset_right_shift_violated`)
* **C11** All N > 0. For N = 0 the code reads before the array (proved undefined). (`C11_bitset_for_each_empty_undefined`)
* **C12** The code visits stored bits above N too: false after set()/flip()/~ on sizes that do not fill the words (proved); true for values whose unused bits are clear, which tidy histories guarantee. (`C12_bitset_transform_reduce_violated`)
* **C13** If some bit below N is clear the result is the least such position; otherwise it is at least N, and exactly N if nothing is stored above N. After set() with N not a whole number of words it exceeds N, and an equal bitset answers N (proved). (`C13_bitset_lowest_unset_violated`)
* **C14** Shifts below the stored size, the right shift with nothing stored above N (C09 shows what it brings down otherwise). By the stored size or more the left shift is undefined and the right shift leaves part of the last word (both proved). (`C14_bitset_left_shift_undefined`, `C14_bitset_right_shift_violated`)
* **C15** Empty length at a word boundary is undefined (proved). (`C15_bitset_empty_range_undefined`)
* **C16** Everything but four cases, each proved. A bitset of no bits with 64-bit words made from a value writes outside its storage. With a 64-bit word type that is not std::uint64_t a value other than 0 is shifted by 64. to<T> does not compile if T is narrower than a word, though it holds all positions. It does not compile either if T is a scoped enumeration with an underlying type that is not the word type. (`C16_empty_value_undefined`, `C16_word_type_undefined`, `C16_to_type_violated`)
* **C17** The list constructor, whole-set operations and traversal for every list of types; set/reset/flip of a type for every type with no repetition before its first occurrence. For every other type set<U> does not compile or changes another type (proved). set<>(false) sets everything. With a repetition, operator[] for a type not listed compiles and reads a bit behind the capacity; for_each over all bits does not compile (both proved). (`C17_repetition_before_violated`, `C17_get_unlisted_violated`, `C17_for_each_bit_violated`, `C17_type_bitset_repeated_violated`)
* **C32** Everything except * on 16-bit values whose product reaches 2^31: undefined there (proved); and except rollover_t<bool>, which is accepted but for which true + true is true and ++ does not compile (proved). (`C32_rollover_mul_undefined`, `C32_bool_violated`)
* **C36** True when the size is a power of two equal to the alignment; the code rounds to sizeof, so false for other types (proved). (`C36_align_uses_size_violated`, `C36_align_moves_violated`, `C36_align_size_not_power_violated`)
* **C40** Every integral T and every storage type at least as wide; the claim about unsigned types has no side condition. Beyond the claim: for signed types of at least 32 bits += -= ++x --x are undefined on overflow, exactly when C40_atomic_undefined_exactly says, and defined as long as the numbers stay in the range of T. (`C40_atomic_undefined_exactly`, `C40_atomic_signed_undefined`)
* **C42** False for a tombstone that is not equal to itself (NaN), and the identity law for an optional with its own tombstone that holds the default one. Also false: a value of a class type cannot be assigned to an optional of that type; o = {} makes an optional of a scalar hold zero; in_place construction uses braces and emplace parentheses, which differ for vector-like types, and narrowing conversions do not compile; transform does not compile if the function returns an aggregate, and does not call a function that returns a type which can be made from its wrapper; emplace from the contained value is undefined, and so is everything after an emplace or reset that throws. The side conditions (no tombstone results, tombstone equal to itself, contained value not the default tombstone of the result type) are shown necessary. (`C42_optional_functor_violated`, `C42_optional_nan_tombstone_violated`, `C42_optional_identity_violated`, `C42_braces_violated`, `C42_narrowing_violated`, `C42_assign_class_violated`, `C42_assign_braces_violated`, `C42_emplace_self_undefined`, `C42_throwing_emplace_undefined`, `C42_transform_aggregate_violated`, `C42_transform_not_called_violated`)
* **C44** Any number of arguments of any types. False when the function returns the tombstone of the result: it is called and the result is disengaged (proved). A tombstone must equal itself (see C42). Also false: with stdx::optional arguments a function that returns an aggregate does not compile; no arguments, or arguments of both kinds, do not compile; a function that returns a type which can be made from its wrapper is not called. (`C44_tombstone_result_violated`, `C44_transform_aggregate_violated`, `C44_transform_not_called_violated`, `C44_mixed_violated`)
* **C45** False of functions that return a type with a constructor that takes the wrapper of the function, such as std::any or std::function<void()>: the function is never called and the value is made from the wrapper (proved for every history). For all other types proved, also for functions that throw. Copies are C103, functions that re-enter their own object C110. (`C45_constructor_for_anything_violated`)
* **C46** False of functions that return a type with a constructor that takes the wrapper of the function, such as std::any or std::function<void()>: no access or refresh ever calls it (proved). For all other types proved, also for functions that throw. Assignment through the reference refresh() returns is in C110. (`C46_constructor_for_anything_violated`)
* **C47** Operations get references and may change any element; ranges may overlap. One count is excluded and proved undefined: the least value of a signed count type of at least 32 bits. (`C47_transform_n_least_undefined`)
* **C48** Proved for n up to the largest ptrdiff_t; for larger size_t values the two versions disagree (proved). The unqualified call of for_each_n finds std::for_each_n for random access iterators or operations of the standard library: only the iterator is returned (proved). (`C48_butlastn_large_violated`, `C48_adl_violated`)
* **C49** Proved when the library's own for_each_n is called. For random access iterators or medial operations of the standard library the unqualified call means std::for_each_n, and initial_medial_final does not compile (proved). (`C49_adl_violated`)
* **C50** False for negative counts (proved: undefined for types of 32 bits and more, 2^width + n calls for shorter ones). (`C50_transform_reduce_n_negative_undefined`, `C50_transform_reduce_n_negative_short_violated`)
* **C51** False for wider unsigned to narrower signed and for negative values to a wider unsigned type (both proved). (`C51_saturate_cast_clamp_undefined`, `C51_saturate_cast_wraps_violated`)
* **C52** Requests within the span; beyond it nothing is checked (proved). On dynamic-extent spans the static forms are not checked at all (proved). (`C52_subspan_beyond_violated`, `C52_static_on_dynamic_undefined`)
* **C53** A static extent larger than the source is rejected only for arrays; from ranges, spans and by default construction it is accepted and reads outside (proved). (`C53_span_extent_unchecked_violated`)
* **C54** For terminated strings; a character array without a terminator is accepted and is not one (proved). (`C54_unterminated_array_violated`, `C54_no_characters_undefined`)
* **C55** Splitting at NUL a string that does not contain it does not compile, instead of returning (S, "") (proved). (`C55_split_nul_violated`)
* **C58** All integer types except bool, for which the loops never end (proved), and format strings without NUL characters; text after a NUL character behind the field is lost (proved). Exactly the format strings beginning with {} or {:x} at their first brace are accepted. (`C58_bool_violated`, `C58_nul_in_tail_violated`, `C58_unterminated_undefined`)
* **C56** Proved for every format string whose texts before compile-time arguments have no braces, for any formatter meeting a one-field contract (the modelled freestanding formatter meets it). With a formatter that unescapes braces, as fmtlib does, escaped braces before a compile-time argument are not preserved (exact result and violation proved). Format strings that are not well formed are accepted for runtime arguments (proved). A runtime argument that is a stdx::tuple is replaced by its elements in the argument tuple, since tuple{arg} copies it (proved for every call). (`C56_escapes_violated`, `C56_unclosed_violated`, `C56_trailing_brace_violated`, `C56_tuple_argument_violated`)
* **C57** Any nesting depth, string, arguments and named arguments, for texts without braces and nested fields without a specifier; false with escaped braces, and for names when a specifier pads the nested text or when the named argument is a stdx::tuple (proved). (`C57_escapes_violated`, `C57_names_escapes_violated`, `C57_padding_violated`, `C57_names_tuple_violated`)
* **C79** Proved for all arguments that are not stdx::tuples. A runtime argument that is a stdx::tuple leaves one field in the string but contributes its elements, however many, to the arguments (proved). (`C79_tuple_violated`)
* **C59** fold_right puts the initial value last, x1 + (x2 + (x3 + init)); the documentation says (init + (x1 + (x2 + x3))), which is the same for associative and commutative functions (C59_documented_partial) and another value for subtraction (C59_documented_violated). Every call is made by the function object in the state in which it was passed: fold_left, fold_right and join copy it for each step, so that one that changes its own members does not see its changes (C59_own_state_violated; C59_own_state_partial for those that do not). (`C59_own_state_violated`, `C59_documented_violated`)
* **C66** For every permutation a correct std::sort may produce; the condition that distinct keys have distinct names is shown necessary. (`C66_equal_names_violated`)
* **C67** Proved for cartesian_product and for cartesian_product_copy of lvalues. cartesian_product_copy of rvalue tuples moves each element out once per combination, so later combinations hold moved-from values (proved for every evaluation order); holds when moving leaves the value unchanged. For elements of types of the standard library the unqualified calls of make_tuple and forward_as_tuple are ambiguous and the product does not compile (proved). (`C67_rvalue_copy_violated`, `C67_adl_violated`)
* **C68** unique for every tuple, to_sorted_set for every tuple whose different types have different names (closure types and local classes may not: then a type can be there twice, proved), to_unsorted_set for every stdx::tuple. For an indexed_tuple to_unsorted_set looks its elements up by their position among the template arguments, the first of which is the list of index functions: whenever it compiles it takes the element behind the first of each type (proved). (`C68_equal_names_violated`, `C68_to_unsorted_set_indexed_violated`, `C68_to_unsorted_set_second_violated`)
* **C69** For environments built by extension, any template arguments and any conversions between query types. A hand-written environment type with one key twice changes meaning when appended, and so does a built one queried by a type that converts to two of its keys (both proved). (`C69_append_handwritten_violated`, `C69_append_conversion_violated`)
* **C70** Which arguments each function gets is proved in full. Disproved for functions given as an lvalue, as in the documentation: tuple_size_v of a reference type is 0, so no function is called; the program does not compile, or the argument is returned in place of the result. And the value of an argument can be lost: an rvalue argument wanted by two functions taking it by value is moved out twice (proved). (`C70_rvalue_shared_violated`, `C70_lvalue_functions_violated`)
* **C72** Modulo 2^W for unsigned types and for signed types below 32 bits. For signed types of at least 32 bits a literal that does not fit does not compile (proved). (`C72_signed_overflow_violated`)
* **C80** False when the product does not fit: the literals wrap silently (proved). (`C80_overflow_violated`)
* **C71** A key bound to two different values is looked up as if unbound (proved). Because the value is the return type of a function, a key bound to a qualified scalar type gives the unqualified type, and one bound to an array or function type gives the default (proved). (`C71_types_violated`)
* **C73** False for totals that are whole multiples when the larger source size is not (one too many), and when the total wraps (too few); both proved for all such inputs. (`C73_exact_multiple_violated`, `C73_overflow_violated`)
* **C76** If the function returns a reference the bound object returns a copy, unlike std::bind_front. A function that is named, not given as a pointer or template argument, and a pointer to a member cannot be bound (all proved). (`C76_reference_violated`, `C76_callee_violated`)
* **C81** Everything but the distance to an earlier iterator of an unsigned type at least as wide as int, which is not negative (proved). (`C81_distance_unsigned_violated`)
* **C82** contains_type disagrees with get for index functions on elements of reference type (proved). (`C82_contains_reference_violated`)
* **C83** False for names containing an equals sign; is_same_template_v is true of a specialisation and its member types and of any other type and itself, and false for a qualified specialisation and an unqualified one (all proved). (`C83_equals_sign_violated`, `C83_member_type_violated`, `C83_not_a_template_violated`, `C83_qualified_violated`)
* **C84** False for scopes whose last closing parenthesis is not followed by a colon (proved). (`C84_parenthesis_violated`)
* **C85** False for lvalue arguments with a non-const rvalue T (proved). (`C85_lvalue_violated`)
* **C86** A function with a parameter that is an lvalue reference to non-const, and a noexcept member function or call operator, has no arity (proved): the search for a number of accepted arguments is made in any case and does not end. The documentation gives arity 2 for f(int&, std::string&). (`C86_lvalue_reference_violated`, `C86_noexcept_violated`, `C86_member_reference_violated`)
* **C87** noexcept functions, and references to functions and function pointers, have no traits (proved). (`C87_noexcept_violated`, `C87_reference_violated`)
* **C88** Does not compile for void and qualified function types, false for volatile specialisations (proved). (`C88_void_and_volatile_violated`)
* **C89** Does not compile for final classes, false for unions with a call operator (proved). (`C89_final_union_violated`)
* **C90** Qualified scalars lose their qualification; arrays and functions are not restored (proved). (`C90_not_restored_violated`)
* **C91** False for stdx::make_integer_sequence<T, N>, which gives one call with N (proved). The documentation uses template_for_each with stdx::make_index_sequence<3>, where the sum happens to be the same. (`C91_make_sequence_violated`)
* **C92** Integers of mixed signedness may be rejected as narrowing, and a function must have a result for 0 even if 0 is not in the sequence (proved). (`C92_mixed_sign_violated`, `C92_zero_required_violated`)
* **C94** CT_WRAP of a non-constant expression without local variables (a call, a static variable), or of a constant that is not of structural type, does not compile (proved). (`C94_ct_wrap_static_violated`)
* **C95** False for std::array, although the documentation says tuple-like types (proved). (`C95_array_violated`)
* **C96** A function that takes a tuple whole is rejected or called with the elements; a class template that is not tuple-like but has std as associated namespace accepts no function; std::array is not unpacked; the free function transform, which the documentation uses, does not unpack (proved). (`C96_unpack_violated`)
* **C97** False for tuples given as const rvalues, whose elements come as lvalues; and a get that cannot be satisfied is an error rather than removed from the candidates, contrary to the documentation (both proved). (`C97_const_rvalue_violated`, `C97_sfinae_violated`)
* **C98** A binding without const is rejected if an element is const or refers to a const object (proved); names of reference elements have the type of the object. (`C98_const_element_violated`)
* **C99** Holds up to 367 arguments that do not begin with three groups in parentheses; with 368 or more, names of the library's macros are left behind the 368th result; an argument (a)(b)() ends the map and drops what follows (proved). A macro f may be any that gives a text without further macros. (`C99_many_violated`, `C99_stop_violated`)
* **C100** A runtime argument that is a stdx::tuple is not kept as an argument, its elements are; an empty one leaves a result without arguments, which converts to a string (proved). The formatting library and the names of enumerators and types are parameters. (`C100_tuple_violated`)
* **C101** An array or a function is not decayed by tuple_cons and tuple_snoc, which are then ill-formed, contrary to the documentation; tuple_cons and filter are ill-formed for every indexed_tuple, and tuple_cons, tuple_snoc and filter for every std::array (proved). (`C101_decay_violated`, `C101_indexed_violated`, `C101_array_violated`)
* **C102** Proved for span and ct_string. The reverse iterators of cx_vector, which the documentation lists, do not compile (proved, with the rule that the constructor of std::reverse_iterator is explicit in the model); reverse iterators made by the caller work. (`C102_cx_vector_violated`)
* **C104** Proved for several tuples, unrolled_for_each, enumerate and bitsets. for_each over exactly one tuple does not compile for a function object passed as a non-const lvalue or that cannot be copied, and returns a dangling reference for one passed as a const lvalue (proved). mutable members of const function objects are not modelled. (`C104_for_each_one_violated`)
* **C105** The calls are proved for every mixture on every target. Violations (proved): where std::size_t is unsigned int every argument is accepted, and one that is not like a tuple silently makes the algorithms do nothing; transform does not compile if the first of several arguments is an array, span, integer sequence or indexed_tuple, or a pair and not exactly two results; get of an integer sequence outside its length is not rejected. (`C105_protocol_violated`, `C105_transform_violated`, `C105_sequence_violated`)
* **C106** Three exceptions, each proved. Arrays of a derived class convert to spans of the base class, and only the first element can then be accessed. std::deque and std::list are accepted, with the same effect. With direct initialisation the extent is not checked against a built-in array to which const is added, nor against an rvalue std::array. (`C106_array_unchecked_violated`, `C106_derived_violated`, `C106_not_contiguous_violated`)
* **C107** Histories in which one of the two objects is used after a copy or move and no list that holds nodes is overwritten. Otherwise the property fails (proved for every reachable state): the objects share their nodes and overwritten nodes stay linked. (`C107_both_violated`, `C107_overwrite_violated`, `C107_overwrite_history_violated`, `C107_forward_both_violated`, `C107_forward_overwrite_violated`, `C107_forward_overwrite_history_violated`)
* **C108** Proved for class-type callables and result types without a constructor for anything. Disproved: function pointers (the example of docs/functional.adoc) and final classes do not compile; constant wrappers of mutable lambdas do not compile; a value of a type such as std::any holds the wrapper and the function is never called. Which elisions take place is not modelled. (`C108_pointers_rejected_fails`, `C108_constant_mutable_rejected_fails`, `C108_constructor_for_anything_violated`)
* **C109** Disproved: safe_identity does not take temporaries that can be neither copied nor moved; unary_plus<T> takes exactly T and returns int for narrower types, unlike std::negate<T>. Class types with their own operators + and * are not modelled. (`C109_immovable_rejected_fails`, `C109_unlike_negate_fails`)
* **C110** Holds for functions that at most ask for has_value(), for a single thread, and for threads once a value is held. Disproved: a function that accesses its object is called at least twice or never ends; two threads that access an empty object race in every execution; a value written through refresh() replaces the computed one. (`C110_reentrant_twice_violated`, `C110_reentrant_endless_violated`, `C110_write_violates_latest_violated`, `C110_threads_race_violated`, `C110_threads_calls_violated`, `C110_threads_value_race_violated`)
* **C111** Holds for conditions in parentheses and for those without >, >> and commas. Disproved for the others: sizeof(T) > 4 and std::is_same_v<T, U> do not compile as conditions, whatever their value; nor do conditions of arithmetic or pointer type. (`C111_greater_violated`, `C111_comma_violated`, `C111_not_bool_violated`)
* **C112** The functions do; the macro takes no local variables as arguments, and no message that is not a string literal (proved). (`C112_local_violated`, `C112_message_violated`)
* **C113** A ct_string and a cts_t can be concatenated but not compared (proved). (`C113_mixed_equality_violated`)
* **C114** is_complete_v keeps its first value when the type is defined later. is_structural_v has no false positives; it is exactly characterised for classes whose constructors take unqualified types by value, and false for structural types with overloaded constructors, more than ten parameters, a shortest constructor that is not constexpr, or that are made from each other (proved; the documentation says that such types are rare). (`C114_complete_later_violated`, `C114_overloaded_violated`, `C114_many_parameters_violated`, `C114_not_constexpr_violated`, `C114_mutual_violated`)
* **C115** Holds for vectors (resize_and_overwrite aside), for values of maps written in loops and for arguments that refer to own elements. Disproved: erasing another element moves the last one, so a reference to it goes stale; keys of maps and elements of sets can be written through iterators and then be there twice. (`C115_map_reference_violated`, `C115_set_reference_violated`, `C115_map_keys_violated`, `C115_set_update_violated`)
* **C116** Holds if the other arguments convert equally well for all overloads. Otherwise a call is ambiguous whenever the overload with the higher priority needs the worse conversion (proved). Conversion sequences are compared by rank. (`C116_conversion_violated`)
* **C117** Disproved for all containers: the size is changed before the copy is made. Vectors remain sequences, and so do queues after push; a set may then hold an element twice, a map loses an unrelated pair, and after a pop that throws front() may read outside the array. (`C117_vector_violated`, `C117_set_erase_violated`, `C117_set_insert_violated`, `C117_map_violated`, `C117_queue_pop_violated`, `C117_queue_pop_reachable_violated`)
* **C118** The value read at once is right in every history. The rest is disproved for every iterator: operator* returns a reference to a member of the iterator, so it moves and ends with it, writing through it moves the iterator, and dereferencing a std::reverse_iterator is undefined. (`C118_reference_moves_violated`, `C118_reference_dangles_violated`, `C118_equal_violated`, `C118_write_violated`, `C118_reverse_undefined`, `C118_plus_reference_undefined`)
* **C119** Integers as in C40. For every T load, store and assignment, for bool also exchange and the bitwise operations. Disproved: an enumeration stored as an integer (as the test configuration does) has no exchange and no arithmetic, a pointer stored as an integer cannot be used at all, and a bool stored as a wider integer still reads true after true + true - true (all proved). Increments of pointers are left to the external library and not modelled. (`C119_enum_violated`, `C119_pointer_violated`, `C119_bool_violated`)
* **C122** Disproved for expressions of the form T(), T(U()) and so on: they are read as function types and do not compile. Classes with further constructors of one parameter are not modelled as types. (`C122_vexing_violated`)
* **C123** remove does not check that the node is in the list: a node in no list empties it silently, the first node of another list redirects it into that list, and after the last node of another list nodes that are added go there (all proved, with the checked policy too). (`C123_unlinked_violated`, `C123_first_of_other_violated`, `C123_last_of_other_violated`)
* **C124** A moved-from object that had a value still says it has one and gives the moved-from value without calling the function (proved). The callables share their state and are not affected by moves. (`C124_moved_from_violated`)
* **C125** Proved for types that are not related to the standard library (and for forward iterators, and for more than one range). Unqualified calls find the functions of the standard library for its types: for_each_butlastn returns another result, initial_medial_final and the Cartesian products do not compile (proved for all such types). Other libraries' functions of the same names are not modelled. (`C48_adl_violated`, `C49_adl_violated`, `C67_adl_violated`)
* **C126** Comparable tuples are accepted and compared as stated; other operands are rejected except when exactly one index has the same element type in both tuples: then the comparison operator of that element is found through the base classes, and only that element is compared, so that tuple{1} == tuple{1, 2} is true (proved). Operators in the namespaces of the element types, and operands convertible to base classes of a tuple, are not modelled. (`C126_one_shared_violated`, `C126_longer_violated`)
* **C127** For two different types narrower than int the common type is rollover_t<int>, which does not compile when used; for an integer type in the first place, and for bool as the integer type, there is no common type (proved). (`C127_narrow_violated`, `C127_order_violated`)
* **C128** ct_capacity: proved. ct_capacity_v<T const[N]> does not compile, since two partial specialisations match and neither is more specialised; nor does ct_capacity_v of a volatile container. All arguments for which it differs are given by C128_ct_capacity_v_iff. Queues: for the policy that panics on overflow. (`C128_const_array_violated`)
* **C129** Holds for arguments of one type and for tuples of anything but one tuple. The elements of a container are the arguments converted to the type of the first by static_cast, so cx_vector{1, 2.5} compiles and holds 1 and 2 (proved for every conversion that changes a value); a single cx_vector, cx_set or tuple is copied instead of becoming the element (proved). Spans: holds for lvalues of contiguous sources and for spans; const temporaries, and temporaries with const elements, are accepted, with a dynamic extent (proved). (`C129_narrowing_violated`, `C129_nesting_violated`, `C129_set_repeats_violated`)
* **C131** False in one respect: bits that the function changes ahead of the traversal are seen if they are in a later storage word and not seen in the same one, so the positions called for depend on the storage type (proved). The rest is proved for every function. transform_reduce also looks at stored bits above the size, see C12. (`C131_ahead_violated`)
* **C132** Holds for bodies that only append or insert; for the range-based for that erases only what it visits (the moved last element is still visited, at its old place); for the loop that advances only if it does not erase; and for loops that take elements out. False for the range-based for otherwise: it visits elements that have been erased, and one twice or never if the body erases another element or erases and inserts. A loop that advances the iterator also after erasing skips elements, and is undefined if it erases the last one (all proved, for every set). cx_multimap: as a map of sets. (`C132_range_stale_violated`, `C132_erase_other_violated`, `C132_replace_violated`, `C132_iter_erase_undefined`)
* **C133** Holds for types whose moves leave a tombstone a tombstone (scalars, owning pointers with the null pointer as tombstone). For the others, such as strings with a tombstone that is not empty, an empty optional has a value after it has been moved from (proved for all of them). (`C133_moved_from_empty_violated`)
* **C134** Writing is proved to give the same bytes on every host. Reading elsewhere gives the same numbers if no field is aligned or the addresses of the two messages agree modulo 8; otherwise advance_to_alignment skips another number of bytes, since it looks at the address (proved). (`C134_alignment_violated`, `C134_native_violated`)
* **C135** Proved for every constructor and call that both have, except: size() is the number of elements of a bitset and the capacity of an atomic_bitset, so the answers differ for every set that is not full; to<T>() with T narrower than a storage word compiles only for the atomic_bitset (both proved). Stored values are given by their positions. (`C135_size_violated`, `C135_to_violated`)
* **C136** Holds for programs that do not shift bitsets to the right and call neither lowest_unset nor transform_reduce, and for vectors without resize_and_overwrite. These show what is stored above the size: bitset<N>{}.set() and bitset<N>{all_bits} are equal, and differ after >>= 1, for every N that does not fill whole words; a cleared vector and a fresh one are equal, and differ after resize_and_overwrite has raised their sizes (all proved). (`C136_equal_bitsets_shift_violated`, `C136_equal_bitsets_above_violated`, `C136_equal_vectors_violated`)
* **C137** Proved for all accesses at places the vector has by then; nothing is ever undefined within the capacity. The last sentence is false: a span keeps showing elements that were popped or cleared, and a span of fixed extent can be made of a vector with fewer elements (both proved). (`C137_removed_violated`, `C137_extent_violated`)
* **C139** Proved for every function that keeps the number of elements in memory. For bitset<0> the traversal is undefined whatever the function does (C11), and transform_reduce also visits stored bits at or above the size (C12); otherwise as stated. (`C11_bitset_for_each_empty_undefined`)
* **C140** Sets and maps: as stated. Multimaps: as stated except erase(k, v), which can throw after it has erased the value, leaving the key with an empty set (proved for all keys and values). Optionals: has_value and operator bool are noexcept, so an exception of == in them, and in everything that asks them, ends the program (proved for every exception); exceptions of the functions handed over, of < and of the operator == of optionals are passed on. operator<=> of tuples compares the first elements twice. (`C140_set_undefined`, `C140_map_undefined`, `C140_multimap_undefined`, `C140_multimap_erase_violated`, `C140_optional_terminates_violated`)
* **C142** The calls of the handler are allowed where it makes them (it does not panic itself). C142_insert_emptied_fails is about a handler outside of the property: one that removes the node at the iterator, by which it empties the list. (`C142_insert_emptied_fails`)
* **C143** For all widths but 31, which no unsigned type has (C32). The client's loops are part of the model. The two _fails theorems prove the last sentence. (`C143_too_far_fails`, `C143_too_late_fails`)
* **C149** The use of the two atomics is a hypothesis on the execution, not a program; threads that never get their turn are allowed. The last two theorems show that the conditions on orders and on the number of tickets cannot be left out. For tickets that wrap around see C155. (`C149_too_many_tickets_fails`)
* **C150** True of bytes within one array, so of all contiguous sequences. The iterators of a std::deque are accepted too, and a byterator made from one is undefined beyond the array its element is in. There is no default constructor; i[n] of a const byterator, and *i and i[n] for const elements, are not of the declared reference type, so that a std::reverse_iterator over const elements cannot be dereferenced (all proved). Iterators past the end are not modelled. (`C150_byte_elsewhere_fails`, `C150_walk_fails`, `C150_requirements_fails`)
* **C151** Policies take the sizes by value, as documented, and do not touch the queue; panic handlers that do are C142. Capacities are below 2^64 - 1. (`C151_unsound_fails`)
* **C152** True if the functions that take the arguments are all const or all not (lambda expressions that are mutable). A mutable function that takes the arguments of a call, however badly, keeps the const one that fits best from being called on an object that is not const; if it fits some argument worse, the call is ambiguous (proved). Call operators that are static or have a ref-qualifier are not modelled; conversion sequences are compared by rank. (`C152_mutable_violated`)
* **C155** The two atomics start at 0. Coherence between threads is a rule of the language ([intro.races]) and is assumed of the execution (Consistent). Threads that never get their turn are allowed. (`C155_too_many_threads_fails`)
* **C156** Where the standard library has no concepts, equality_comparable and totally_ordered ask for operators that return bool itself, where the standard asks for something that can be tested; and of a reference to an object that is not const they look at the operators for such objects, where the standard looks at those for const ones (both proved). range differs from the standard as documented. Concepts whose text is that of the standard are not modelled. (`C156_not_bool_violated`, `C156_reference_violated`)
* **C157** The client's program is part of the model. Loads and resets on one word; what is written elsewhere before a raise is ordered only with the memory orders of C130 and C138. The last theorem shows that load followed by reset() would not do. (`C157_load_and_reset_fails`)
* **C158** The client's program is part of the model. Capacities are below 2^64, and at least one value per key. The last theorem is about the variant with erase(k, v), which drops keys without values (C31): it is wrong for every input of two tasks or more. (`C158_erase_fails`)
* **C159** The client's program is part of the model. Coherence between threads is a rule of the language ([intro.races]) and is assumed of the execution (Consistent). That the number does not go all the way round while a reader reads is a hypothesis (part of Reads), which C159_few discharges if there are fewer stores to the number than it has values. The number starts at 0. (`C159_relaxed_fails`)
* **C162** The total order of sequentially consistent calls is a rule of the language ([atomics.order]) and is assumed of the execution (SingleOrder). C162_flags asks for seq_cst only of the four calls. For operators that name no order in atomic.hpp the order is the default of the external library (C130), which must be seq_cst. (`C162_acquire_release_fails`)
* **C164** True of all objects but arrays: for these expand(shrink(x)) compiles and is not an array but the result of shrink (proved). That the argument of shrink, which is consteval, can be named in a constant expression is assumed. Moving is taken to keep the content. (`C164_array_violated`)
* **C166** get<I>(v), unlike v.get<I>(), is not constexpr and is rejected in every constant expression (proved). Constant indices from the capacity on are rejected, but those from the size up to the capacity are accepted and refer to something that is not an element (proved). True otherwise. (`C166_size_violated`, `C166_constant_violated`)
* **C167** True unless the number or the total does not fit std::size_t: such literals compile and give too few units (proved for all of them). A const sized object cannot be asked for its size in other units, since in() is not a const member function (proved). (`C167_wraps_violated`, `C167_total_violated`, `C167_const_violated`)
* **C168** Two exceptions, both proved: a const byterator cannot peek, and i[n] of a const byterator cannot be assigned to where *(i + n) can. The other members (advance, ++, the functions for each size) are like those modelled. (`C168_assign_violated`, `C168_peek_violated`)

## Axioms of the theorems in the manifest

* Classical.choice, Quot.sound, propext — 556 theorems
* Quot.sound, propext — 255 theorems
* propext — 109 theorems
* no axioms — 7 theorems: Judge.C140_optional_equal, Opt.C42_optional_by_reference_const, Opt.C42_optional_value_or, Opt.C96_free, Rollover.C34_bool, Traits.C86_not_callable, Unwind.C139_tuple_fold_left
* Quot.sound — 3 theorems: Opt.C42_emplace_self_undefined, Opt.C42_lifetime_partial, Opt.C42_throwing_emplace_undefined

## How much of each header is modelled

Code lines (without comments, braces and declarations that carry no behaviour) cited by some definition, of all such lines, and the lines not cited.

| header | cited | not cited |
|---|---|---|
| algorithm.hpp | 69/69 |  |
| array.hpp | 12/12 |  |
| atomic.hpp | 73/73 |  |
| atomic_bitset.hpp | 141/141 |  |
| bit.hpp | 217/217 |  |
| bitset.hpp | 399/399 |  |
| byterator.hpp | 110/110 |  |
| cached.hpp | 5/5 |  |
| call_by_need.hpp | 85/94 | 37-42 50-52 |
| compiler.hpp | 0/4 | 52-55 |
| concepts.hpp | 48/53 | 128 131 134 137 140 |
| ct_conversions.hpp | 35/35 |  |
| ct_format.hpp | 204/223 | 26 55 62-63 112-114 120 375-377 382-386 439-440 447 |
| ct_string.hpp | 67/74 | 21-23 39 48-49 66 |
| cx_map.hpp | 63/65 | 18-19 |
| cx_multimap.hpp | 52/52 |  |
| cx_queue.hpp | 58/59 | 35 |
| cx_set.hpp | 52/52 |  |
| cx_vector.hpp | 83/87 | 168-169 173-174 |
| detail/bitset_common.hpp | 0/4 | 5-8 |
| detail/fmt.hpp | 79/79 |  |
| detail/freestanding.hpp | 0/0 |  |
| detail/list_common.hpp | 50/50 |  |
| env.hpp | 24/25 | 43 |
| for_each_n_args.hpp | 16/18 | 17-18 |
| function_traits.hpp | 43/43 |  |
| functional.hpp | 49/62 | 39-41 69-70 95-97 125-126 142-144 164 |
| intrusive_forward_list.hpp | 62/62 |  |
| intrusive_list.hpp | 103/103 |  |
| iterator.hpp | 62/62 |  |
| latched.hpp | 25/25 |  |
| numeric.hpp | 30/30 |  |
| optional.hpp | 170/177 | 26-27 53-57 90 |
| panic.hpp | 8/8 |  |
| pp_map.hpp | 4/4 |  |
| priority.hpp | 0/0 |  |
| ranges.hpp | 3/3 |  |
| rollover.hpp | 94/95 | 135 |
| span.hpp | 135/135 |  |
| static_assert.hpp | 15/16 | 10 |
| tuple.hpp | 227/243 | 23 44-45 49-51 141-142 145 189 336-338 419-420 469 |
| tuple_algorithms.hpp | 287/296 | 329-334 338-340 431 542 |
| tuple_destructure.hpp | 13/13 |  |
| type_traits.hpp | 103/117 | 17-20 178 260-262 283-286 317 342 347-348 |
| udls.hpp | 51/70 | 78 101-106 139-141 144-153 |
| utility.hpp | 106/143 | 24 28 65 73 93-96 99-103 180 183 186 189 194-196 199-201 206 212 228-229 233 253-254 259 262 266 272 363-368 |
