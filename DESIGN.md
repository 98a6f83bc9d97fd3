# Design of the formal model of beached/header_libraries

## 1. What is being proved, and about what

The deliverable is a Lean 4 development under `lean/Verif/`.  Every property of
`properties.jsonl` is stated as a theorem about a *model* of the C++ code: a set
of Lean functions written one by one from the headers in
`/repo/include/daw`, each carrying a comment with the file and lines it
was written from and the simplifications made.  Nothing was compiled from or
run against the C++ sources; the code was read as text.

### Layout

* `Verif/Base.lean`: the outcome monad shared by the imperative models.
* `Verif/<Area>/Model.lean`: the model (code, function by function).
* `Verif/<Area>/Spec.lean` (where the specification is more than a line): the
  independent specification, written only with core/Mathlib notions.
* `Verif/<Area>/Lemmas.lean`: helper lemmas.
* `Verif/<Area>/Props.lean`: the property theorems, the `example`s showing that
  their hypotheses are met by non-trivial cases, and the findings.

`MANIFEST.json` maps every property to its theorems.

### Modelling conventions

* **Outcomes.**  Imperative code is written in `Cxx := ExceptT Err Option`:
  `some (.ok a)` normal result, `some (.error e)` for undefined behaviour
  (`Err.ub`), an exception (`Err.thrown`) or `std::terminate`/`daw_ensure`
  failure (`Err.abort`), and `none` for a non-terminating run.  Loops and
  recursion whose termination is part of the claim are defined with
  `partial_fixpoint`, so a theorem `f x = pure y` is total correctness, and
  `f x = none` says that the call never returns.
* **Undefined behaviour** (reading outside a range, signed overflow, shift by too
  much, using a dead object) is a distinct outcome, never silently totalised.
* **Integers.**  Fixed width integers are `BitVec w` / `UInt64` where wrap around
  matters; indices that cannot wrap by construction are `Nat`/`Int`.
* **Ranges.**  A random access range is a `List`/`Array` plus indices; a forward
  range is a list; iterators are indices into it.
* **Comparisons** are functions `α → α → Bool` with a strict-weak-order
  hypothesis where the C++ documentation requires one.
* **Histories** are lists of operations, folded over the model; theorems are by
  induction on the history.
* **Allocation** always succeeds, element copy/move/compare do not throw, unless
  a comment says otherwise.

### When the code violates the property

The theorem that the property fails is proved with a concrete witness (name
ending in `_violated` or `_finding`), and the strongest version which holds is
kept under a name ending in `_partial`, with the missing part in its comment.
All of these are listed in section 4.

## 2. Trusted base

* Lean 4.33.0's kernel.
* Axioms: at most `propext`, `Classical.choice`, `Quot.sound` (the standard
  three); no axiom of our own, no `sorry`, `native_decide` or `bv_decide`.
* The reading of the C++ by the model: the correspondence between the headers and
  `Model.lean` files is by inspection, per cited lines.  Compiler, standard
  library (`std::swap`, `std::move`, `std::distance`, `std::unordered_map`, ...) and hardware are
  assumed to behave as the C++ standard says.
* Assumed of library functions and builtins, in the models that use them: `memchr`,
  `memcmp`, `memmove`, `memcpy`, `std::search`, `__builtin_clz/ctz/popcount/bswap` do what
  their documentation says; `std::sort` yields some permutation (its order is not used);
  iteration over `std::unordered_map/set` is in an arbitrary order the theorems quantify
  over; the loads of an atomic object and the readings of the clock are arbitrary sequences.
* Platform: LP64, two's complement, `char` signed where the comment says so (x86-64 Linux),
  little endian unless both are treated.
* Allocation failure is modelled for `daw::vector` and `split_buffer` only.  Streams are
  modelled as the characters written.  `&m_stack[N]` in `bounded_vector::end` is treated as
  the one-past-the-end pointer.
* Template machinery (SFINAE, overload choice, `constexpr` evaluation, noexcept
  computation, traits) is not modelled, the function bodies are.

## 3. Plan per property

| Property | What is modelled | How it is proved |
|---|---|---|
| C01 | `sort` and its helpers as index-based code on a memory with bounds-checked reads and writes, `partial_fixpoint` recursion | invariants for each inner loop, strong induction on range length |
| C02 | the comparator lists of each network | 0-1 principle proved for strict weak orders; reduction to Boolean inputs by structural merging lemmas, finite evaluation by kernel `decide` per block |
| C03 | `counting_sort`, `sort_to` | refinement on non-negative input; witnesses for negative and descending input |
| C04, C05 | `Vector` on a memory of cells (uninitialised / live), every operation through its real helper functions, UB on lifetime errors | representation invariant, refinement to `List`, induction on history |
| C06 | aliasing inserts with the reference as an index into the cells | case analysis index/position/capacity |
| C07 | capacity arithmetic (`recommend`, `reserve`, `shrink_to_fit`) | invariant over history, doubling lemma |
| C08 | `resize_and_overwrite` | witness for UB; partial when the result does not exceed the old size or equals n |
| C09 | `block_append_from` | proof of divergence |
| C10 | `split_buffer` | invariant + refinement, witness for `reserve` |
| C11-C20 | `basic_string_view` as (offset,length,flag) into a text | each search as loop; specifications by `∃/∀` on indices; history induction for C11, C19 |
| C21 | `fnv1a` | fold, reference FNV-1a on bytes |
| C22-C33 | loops of `daw_algorithm.h` on lists with indices | loop invariants |
| C34 | shift/mask code on `BitVec` | bit extensionality |
| C35, C36 | bit queue/stream with word-width arithmetic | refinement to `List Bool` |
| C37, C38 | limb arrays | bit extensionality, witnesses |
| C39 | shifts and masks | bit extensionality |
| C40 | comparison by sign cases on values of arbitrary width | `omega` on `toInt` |
| C41 | `basic_natural_t` on machine words | witnesses + partial |
| C42 | loops | induction on exponent |
| C43, C44 | bit tests on `BitVec 32/64` | bit-level case analysis |
| C45-C48 | array + index state | history induction |
| C49-C52 | probing on arrays for arbitrary hash functions | probe chain invariant |
| C53 | maps of nodes with id sets | history induction |
| C54-C56 | work-list loops on graphs | loop invariants, reachability |
| C57 | heap of control blocks and handles | invariant count = number of handles |
| C58 | stream of observed values and clock readings | induction on the stream |
| C59, C60 | round functions on 64-bit words over byte lists | refinement to a reference |
| C61, C62 | digit loop, splitters | round trip with decimal rendering |
| C63 | range loops | induction |
| C64-C70 | iterators as state machines | induction on the range |
| C71 | buffer + offset | history induction |
| C72, C73, C76-C80, C83 | further loops of `daw_algorithm.h` | induction on the range |
| C74, C75 | `append_and_overwrite`, aliasing pushes of `split_buffer` | as C05, C10 |
| C81, C82 | `consume_if`, three-iterator comparisons | loop invariants, witnesses |
| C84 | the packed size/flag word of `string_view` | bit arithmetic |
| C85-C88 | more of `basic_string_view`: several needles, counted pops, `copy`, stream output | as C11-C20 |
| C89 | counts and texts of `static_bitset` | bit extensionality, witnesses |
| C90, C91 | `daw_cxmath.h`, `daw_math.h` integer functions | arithmetic, witnesses |
| C92-C94 | node proxies, sorted ranges of graphs | case analysis, witnesses |
| C95 | `daw_atomic_wait.h` loops | induction on the sequence of loads |
| C96-C98 | `unique_ptr`, `maybe_unique_ptr` ownership | invariant over operation lists: for each object, owners + deletions + releases = hand-ins |
| C99-C103 | `value_ptr`, `heap_value`, `copiable_unique_ptr`, `poly_value` | heap layer (Own/Box) with invariant; simulation by plain values over operation lists |
| C104-C110 | `unique_resource`, `ScopeGuard`, `on_exit_success`, `countable_resource`, `allow_once`, `take`, `not_null` | Own/Resource: operation lists with conservation of handles; scopes as programs with two semantics (as written, as wanted) |
| C111-C112 | `optional` comparisons, `expected_t` | Own/Optional: every operator against the order with empty first; state machine over operation lists |
| C113-C115 | `safe_pointer` | Own/SafePointer: 64-bit offsets, range invariant over lists of moves |
| C116-C117 | `shared_function`, `weak_shared_function` | Memory/SharedFunction: all interleavings of atomic steps, inductive invariant relating both counts to handles and threads |
| C118-C119 | `shuffle`, `random_fill`, `make_random_data`, `RandomInteger` | Random/Shuffle: the engine is an arbitrary function within the requested bounds; permutation by induction, bijection with choice sequences |
| C120 | `rand_lcg`, `static_random` | Random/Lcg: the recurrence modulo a power of two, full period by induction on the exponent |
| C121 | `daw::function` of daw_stack_function.h | Own/StackFunction: buffers hold names of callables, byte copies share them; simulation by values and ownership invariant; three violations |
| C122-C124 | `iota_iterator`, `iota_range` | Iter/Iota: integer types with their promotions and conversions, undefined on signed overflow; loop by induction on the distance |
| C125-C126 | `chunk_iterator`, `repeat_n_char_iterator` | Iter/Strides: positions in one block, undefined outside of it; loops by induction |
| C127-C128 | `reverse_iterator`, counting iterators | Iter/Reverse: programs on any number of iterators, simulation by the mirrored positions, invariant over operation lists |
| C129-C131 | `arg_iterator_t`, `indexed_iterator`, `checked_iterator_proxy_t` | Iter/Checked: positions, checks that abort or throw; loops by induction, witnesses for the missing checks |
| C132-C134 | `find_iterator`, `find_one_iterator`, sorted insert iterators | Iter/Find: loops equal filters of the range by induction; `std::lower_bound` with its precondition |
| C135 | `InputIterator` | Iter/Erased: heap of typed cells, undefined on a delete of another type; simulation by plain values with an ownership invariant |
| C136 | `vector` from input iterators | Vector/Input: spare room, growing buffer, rotation and insertion over the memory model of Vector/Model; divergence by fixed point induction |
| C137 | `mask_msb`, `mask_lsb` | Bits/Masks: shifts of the promoted type with the undefined cases of C++17 and C++20; bitwise characterisation for all widths |
| C138 | `set_bits`, `unset_bits`, `get_bits` | Bits/Masks: induction over the positions, bitwise; C138_outside tells what positions outside do |
| C139 | `make_mask`, `are_set` | Bits/Masks: bitwise, induction over the masks |
| C140 | `daw_ascii.h` | Bits/Masks: over all integers, against the lists of characters |
| C141 | `zip_view` | Pipelines/Zip: a list of ranges and a list of positions, induction over the steps left |
| C142 | `==`, `!=`, `<`, `-` of `zip_iterator` | Pipelines/Zip: counterexamples, and the laws for positions in step |
| C143 | `iota_view` | Pipelines/Zip: increments in the promoted type with overflow, induction over the steps left |
| C144 | `Enumerate`, `EnumerateFrom` | Pipelines/Zip: both iterators in step, induction over the steps left |
| C145 | `Map` | Pipelines/Map: induction over the positions left |
| C146 | `map_view` as owner | Pipelines/Map: store of buffers and views, invariant over the list of operations; the containers are those that hand over their buffer when moved |
| C147 | `generate_n` | Pipelines/Map: the state of the function is part of the iterator, induction over n |
| C148 | `cache_last_iterator` | Pipelines/Map: equality with the loop reading once, over any effect of reading |
| C149 | `Find`, `FindIf` | Pipelines/Search: induction over the positions left; random access iterators |
| C150 | `Contains`, `First`, `DropWhile`, `DropUntil`, `CountIf` | Pipelines/Search: inductions over the positions left; ranges of less than 2^64 elements for CountIf |
| C151 | `Every` | Pipelines/Search: on top of the filter with a state, induction over the list for all counters |
| C152 | `Sum` | Pipelines/Search: induction, arithmetic in the promoted type; modulo the size for unsigned types |
| C153 | `To<std::array>` | Pipelines/Search: induction over the size of the array |
| C154 | `sized_iterator`, `Reverse` of `Take` | Pipelines/Search: induction over the steps left |
| C155 | `range_t` | Pipelines/Search: induction over n |
| C156 | The union with its live member and its tag, `clear`, `store_type0`, `store_type1`, the assignments, `visit`, `which`. | Refinement over operation lists to `Option (A ⊕ B)` for trivial types; for other types the first store is undefined (`C156_union_violated`), and a throwing assignment forgets the held object (`C156_throw_violated`). |
| C157 | `validate`, the constructors and assignments, the default constructor, the rvalue `get`. | Invariant over operation lists in which the program catches the exceptions. |
| C158 | The heap with its arrays, the variables, the constructors, the move operations, `operator[]`, the destructor. | Refinement over operation lists with the invariant that each live array has exactly one variable that knows its size. |
| C159 | `operator[]`, `at`, `empty`, `front`, `back` in the states of C158. | From the invariant of C158; `at` by cases. |
| C160 | The bytes as nothing, an object or a pointer; the tag; the heap; `get`, the const `get`, `allocate`, `deallocate`. | Invariant over operation lists. |
| C161 | The iterator with its pointer into one of the strings, `*`, `++`, `!=`, `-`. | Induction over the strings and the characters of a string, through `collect`. |
| C162 | The fold over `+` with the order of evaluation as a parameter. | The result for every order is the first argument followed by a permutation of the rest. |
| C163 | The two functions on a memory. | Direct computation with list updates. |
| C164 | The loop with its additional dereference, on ranges of pointers into a memory. | Induction over the range. |
| C165 | The pair of positions in an array, the removing, adding, popping and searching members, `at`. | Refinement over operation lists to three lists: what is before the view, in it and after it. |
| C166 | `operator==` with `std::equal`. | Induction over the elements of the first view. |
| C167 | `subspan` and both `operator[]`. | Direct for offset 0; for all other offsets the wrong end is shown. |
| C168 | The pointer and the size with subtraction modulo 2^64, the removing and popping members, `subspan`, `at`, `front`, `back`, `empty`, `rbegin` and `rend`. | Refinement over operation lists to lists. |
| C169 | The constructors, `crbegin` and `crend` of both specialisations. | Direct; the loop by unfolding. |
| C170 | The loop of `rotate` with its three moving iterators. | Invariant of the loop with the two parts as lists; termination by the same induction. |
| C171 | Both loops of `nth_element`. | Rearrangement as an invariant of both loops; the failure by computing. |
| C172 | `partition` with its search and loop. | Invariant of the loop. |
| C173 | The operators with the type in which they compute and the type of their result as parameters, with the promotions of C++. | Congruences modulo powers of two; bounds for the promoted types. |
| C174 | The operators with the type in which they divide as a parameter. | Bounds on the conversions. |
| C175 | Both rotations, with shifts in the width in which they are done. | Bit by bit. |
| C176 | `set_bit` and `get_bit` with the mask in 32 bits. | Bit by bit. |
| C177 | The masks and the assembly of numbers of bytes. | Arithmetic modulo powers of two; induction over the bytes. |
| C178 | The four operators. | Direct. |
| C179 | The iterators as positions of a sequence, the size kept beside them; the operations one by one, with their assertions. | Case analysis and the first position that satisfies a predicate. |
| C180 | The operators with the loops they call. | Reduction to the theorems on the loops. |
| C181 | `subspan` with the constructor it calls. | Case analysis; the failure by computing. |
| C182 | The view with its size; a run over a list of operations. | Refinement of lists by induction on the operations. |
| C183 | The loop over the value, possibly endless. | A closed form for the loop by induction; fixed point induction for the endless runs. |
| C184 | The comparisons with the promotions and conversions of C++. | Values that are not negative survive the usual arithmetic conversions. |
| C185 | The functions on bytes with the signedness of char as a parameter, and the loop over strings with the conversions between the character type and char. | All bytes by the kernel; strings by the theorem on the loop. |
| C186 | The functions with output iterators that store in a block or append to a string. | Round trip with a reader of hexadecimal text, by induction on the number of bytes. |
| C187 | The objects as their bytes. | Induction on the bytes; the failures in general form. |
| C188 | The reads, shifts and conversions one by one. | Joining of bytes by or. |
| C189 | The pointer to the last argument; the objects of the program at the time of every call. | Induction on the calls. |
| C190 | The functions, with types as values of a type with decidable equality. | Induction on the lists. |
| C191 | Both comparisons with the conversions of C++. | Values that are not negative survive the usual arithmetic conversions; the failure by computing. |
| C192 | The two arrays of hashes and values, the probing and all operations; runs over lists of operations. | Refinement of a finite map by an invariant of the probe sequences. |
| C193 | As for C192. | The probe of a stored hash ends at the same cell after every operation, by induction on the operations. |
| C194 | The loop of `make_fixed_lookup`, a throw of which ends the program. | By the refinement of C192. |
| C195 | The vector of pairs with the linear searches. | Refinement of a finite map with an order of keys, by induction on the operations. |
| C196 | The stack of ranges, the median and the loop, over any partition function. | Invariants of the stack; the failures by inputs made for every size. |
| C197 | A heap of blocks, the three members of the array, all functions of the class with reads and writes outside a block undefined. | A predicate that an array owns a block; each function keeps it and leaves the other blocks alone. |
| C198 | The write of the sentinel and the loop. | Induction on the distance to the first match. |
| C199 | As for C197. | By the predicate of C197. |
| C200 | The array of optional keys, the probing, and all operations that compile; runs over lists of operations. | Refinement of a finite set by the invariant that every key can be reached from its home over taken places. |
| C201 | `find` on the probing of C200. | By the specification of the probing. |
| C202 | `begin` and the loops of the iterators' `operator++` as loops that read the array. | begin is the first entry, ++ goes to the next entry if there is one. |
| C203 | The loop of insertions into a set whose capacity is the number of items. | By the refinement of C200. |
| C204 | The graph on the models of the bounded map and the bounded set, with the debug checks on. | Refinement of a relation on numbers, by induction on the operations; ids less than a capacity that is no multiple of 59 have different homes, so every edge is at its home and can be erased. |
| C205 | A node as the address of its graph and its id. | By cases. |
| C206 | The loops over the map of nodes with the predicates on the edge sets. | By the refinement of C204 and the loop over a bounded map of C49. |
| C207 | The recursion over the predicates and the loop over the range, with predicates that may have any outcome. | Induction over the sequence of all tests. |
| C208 | The two stable partitions, which are a rule of the library. | Equalities of lists for each part of the result. |
| C209 | The loops over lists, with reads and writes checked. | Induction over the range. |
| C210 | The loop, and the end of the function without a return as undefined behaviour. | Induction over the range. |
| C211 | Containers of keys as lists, with the rules of the library for extract and insert of nodes. | Induction over the size of the source. |
| C212 | Members that are references for variables and values for temporaries; the check of in_range after the arguments were forwarded. | Case distinction on the kind of argument. |
| C213 | `std::remove_if` as loops over memory cells, followed by the erase of C04. | Invariant of the loop: kept elements, then objects without meaning, then the elements not yet seen. |
| C214 | The operators over memory cells; reading past the elements would be undefined. | Induction over the elements. |
| C215 | Vectors with their allocator and the allocator of their block; returning a block to another allocator is undefined. | The invariant that the block belongs to the allocator, kept by each operation. |
| C216 | Each member as a function of the characters with the loops of the implementation header; leaving the text is undefined. | Equality with the second version where the code agrees, induction over the loops elsewhere. |
| C217 | A view as an offset and a length in the text; the members statement by statement. | From the searches of C216 and arithmetic on offsets. |
| C218 | The loop of split; the overloads for character arrays pass the size of the array. | Induction over the length against an inductive specification of the pieces, which is shown to determine them. |
| C219 | The array with one cell more than the capacity, the members on it, and a reader of c_str that must not leave the array. | Invariant over histories, in step with the calls on a list. |
| C220 | The members over the array, with the arguments made bounded strings first where the code does. | From C216 and C217, and the fact that a needle that was cut is still longer than the text. |
| C221 | The cells with their hashes, the search, growing, insertion, lookup and erasure statement by statement; the growth in double is any function. | Induction over the history; the search is proved to be the first cell around the table. |
| C222 | The iterator as a position in the text, with the search of the first string view. | Induction over the rest of the text against an inductive specification, which is shown to determine the pieces. |
| C223 | The loop over the characters; the view is followed by other characters or the end of the memory. | Induction over the text. |
| C224 | The vector with blocks of cells, written or not, and the capacity it believes to have. | An invariant kept by every call; the insertion is characterised position by position. |
| C225 | The copy with the memory it allocates and the capacity it takes over, std::equal on cells. | Invariant of the source; induction over the elements pushed and compared. |
| C226 | The optional value and the exception pointer, types of exceptions as sets. | Induction over the list of types and over the history. |
| C227 | The flag and the exception pointer, and which constructor a copy takes. | Case analysis with the check of types from C226. |
| C228 | The loop over the text with the parser of numbers. | Induction over the fields of a text written from its parts. |
| C229 | The parser of tokens with the capacity of the vector they are put in, asserts included. | Induction over the fields of a text written from its parts; the number of tokens is compared with the number of characters. |
| C230 | All arrays of a program with the blocks of memory they have. | An invariant that ties every block to one array, kept by every call. |
| C231 | The iterators as places in blocks, with the assert of their constructor. | Induction over the elements, after the invariant of C230. |
| C232 | The memory of the array and the loops that write it. | Loops characterised by induction; refinement of histories to functions from positions to values. |
| C233 | std::reverse_iterator with its base, which is one place off. | Induction over the places. |
| C234 | The loops over the text with the memory of the decimal point. | Induction over the text. |
| C235 | The loop with its count of digits, and arithmetic that can overflow. | Induction over the digits. |
| C236 | The loop with the character before and the flag that survives it. | Induction over the text between the quotes. |
| C237 | The loop with std::find_if. | Induction over the parts. |
| C238 | Both loops. | Induction over the parts, after C237. |
| C239 | The loop with isspace as the C library defines it. | Induction over the text. |
| C240 | The functions of std::string with npos, and arithmetic of size_t. | Case distinction on the first and last character that is no delimiter. |
| C241 | The functions of std::string with npos. | Case distinction on the last character. |
| C242 | The search of std::string. | Induction over the text. |
| C243 | The loop with find and replace of std::string. | Induction over the replacements; fixed point induction for the loop without end. |
| C244 | The regular expression as a function, and the loop over its matches. | Induction over the fields. |
| C245 | The switches with their defaults, the recursion, and the assumption in get_nt. | Induction over the alternatives that are left. |
| C246 | As C245, with the check that this overload has. | Induction over the alternatives that are left. |
| C247 | Both visitors over visit_nt. | By C245. |
| C248 | The fold. | Induction over the conditions. |
| C249 | Both representations of a table, and the recursion of apply_at_impl. | Induction over the functions that are left. |
| C250 | The constructor with the handler, the uses, which assume that the conditions hold, and adding of conditions. | Invariant over the history. |
| C251 | Variables with objects that have a type, a base and what the type adds; every operation. | Invariant and simulation over the history. |
| C252 | The six operators. | Case distinction. |
| C253 | The constructors of Argument and Arguments. | Round trip, by induction over the texts. |
| C254 | The searches. | Induction over the list. |
| C255 | Moves of all components, each within its range. | Invariant over the history. |
| C256 | The loop with the comparison of all components. | Induction over the rows that are left. |
| C257 | The bits that pow2 sets, and the rational number that bits stand for. | By the fields after set_exponent, C43. |
| C258 | The bits of the factor and the number that they stand for. | By the fields after set_exponent, C43. |
| C259 | The loops that compute the entries, in rational arithmetic without rounding, and the index. | Induction over the exponent. |
| C260 | The accessors on the bits and significand in rational arithmetic. | By fields of the bits and the power that set_exponent gives. |
| C261 | The sum of the bits and the order of the numbers that the bits stand for. | Finite positive numbers are ordered as their bits. |
| C262 | All rounds, the first guess and the constants, in rational arithmetic without rounding; exponent, scaling and powers on the bits. | Each round squares the relative error; bounds of the guess over [1, 2). |
| C263 | The comparison with zero by class and value. | By the sign of the value. |
| C264 | The functions on rational numbers without rounding, with the conversion to an integral type that drops the part behind the point. | By the laws of floor and ceiling of rational numbers. |
| C265 | The functions on rational numbers without rounding. | From the property of the integer functions, multiplied by the step. |
| C266 | The function on rational numbers without rounding, infinities and NaN. | By cases. |
| C267 | The recursion on rational numbers without rounding, and for infinities and NaN. | The triple angle formula of the real sine and the bound of its third power near zero; induction over the recursion. |
| C268 | Threads as programs over a list of atomics, with indivisible steps in any order, integral types of every width. | The value plus what the threads still have to add does not change; induction over the steps. |
| C269 | The model of C268. | The list of all values in the atomic, in programs and in results is the same up to order; induction over the steps. |
| C270 | The model of C268, in which such an assignment takes two steps. | An execution whose outcome no order of indivisible steps has; induction over the steps for the value that is written. |
| C271 | The branches for constant evaluation, where signed overflow is undefined, and those of std::atomic_ref, which wrap. | Induction over the program. |
| C272 | The loops, with source and destination in one memory. | Induction over the number of elements; every place of the result compared with the memory before. |
| C273 | The loop, with source and destination in one memory. | Induction over the number of elements. |
| C274 | The loop and begin_at, with the changes that the function makes and the list of calls. | Induction over the number of calls, and C31. |
| C275 | Ranges as pairs of places in an array, with the arithmetic of size_t and ptrdiff_t. | Places of the range compared with those of the array; induction for the loops. |
| C276 | The model of C275. | By the laws of take and drop. |
| C277 | The union with its active member, the thunk, and objects that are created, changed and destroyed; both specializations. | The thunk fits the active member and the class of the object; induction over the history. |
| C278 | The choice of the bin, set_bit with its 32 bit shift, and operator[]. | Invariant of the bins over the list of calls; the sizes for which every bit is defined by cases on the remainders. |
| C279 | append_hash for 16, 32 and 64 bits, the loops over ranges and lengths, the call on pointers and on arrays of characters. | Refinement to FNV-1a of C21, induction over the range; the round is undone by the inverse of the prime. |
| C280 | The POSIX version: the cleanup, open, moves and destruction over a system that keeps the open descriptors and mappings. | Invariant over the list of operations that counts holders. |
| C281 | open, operator bool, empty and reading from begin to end. | Cases on the answer of the system; induction over the number of elements. |
| C282 | The Windows version: the cleanup, both forms of open, moves and destruction over a system that keeps the open handles and views. | Invariant over the list of operations. |
| C283 | operator bool and empty after open. | Cases on the answer of the system. |
| C284 | The choice of the unit over the rational numbers, and the rounding of the output. | Cases on the unit and linear arithmetic. |
| C285 | The loops for the smallest and largest time and the formulas, over the rational numbers, and the number of calls. | Induction over the durations and arithmetic. |
| C286 | parse of the formatters of ranges and tuples: the scan for the closing brace with quotes and nested braces, and the text kept. | Induction over the specifications in which quotes and braces are balanced. |
| C287 | format of the formatters of ranges and tuples, and the formatters that are used for the elements. | Induction over the elements and over the depth. |
| C288 | set by position, set by index with the choice of the overload, functions called at once and late, construction on lvalues and rvalues. | Invariant of the parameters over the list of calls. |
| C289 | max_sizeof, is_a for one and more values, expect, in_range, the classes of ASCII characters, unicode white space, escape, quote, in. | Arithmetic of the conversions; the exact condition under which is_a is true as divisibility. |
| C290 | matcher for containers and literals, with the search. | Induction over the text. |
| C291 | The six comparisons with the conversions of C++. | Cases on the signedness, arithmetic of conversions. |
| C292 | The operators of two tuples, and of a tuple and a value either way round, with the conversions of C++. | Induction over the components. |
| C293 | min, max, operator<<, get and apply_at. | Induction over the components. |
| C294 | The recursion over the arguments with the common type at every step. | Induction over the arguments. |
| C295 | do_n and do_n_arg with a count at run time, and the unrolled ones as fold expressions over + whose operands are evaluated in any order. | Induction over the count; the fold over all choices of operand order. |
| C296 | The loop over the positions with the checks of debug builds, the conversion to size_t and bitset::set, which throws. | Induction over the positions. |
| C297 | The ten literals with products of 64 bits. | Arithmetic modulo 2^64. |
| C298 | array_cmp over arrays of arrays with the value that stands for equal. | Induction over the rank and over the elements. |
| C299 | order_to_integer, the enumerations and equal_or_equivalent_v. | Cases of the orderings for every value that stands for unordered. |
| C300 | read_file with the size reported, opening and reading that may fail or give less, and the number of open files. | Cases of the failures; list arithmetic for the content. |
| C301 | Constructors, move assignment, reset, release, close and the destructor over a world of owners. | Invariant of the number of owners and closings of a file over all programs. |
| C302 | container_deleter and container_data with the implicit moves of the unique_ptr inside. | Invariant of buffers held and freed over all programs. |
| C303 | construct, access, destruct and the implicit copy of the bytes. | Counting of objects made, alive and destroyed over all programs. |
| C304 | The four overloads of advance, next, prev and both ways to measure, with undefined moves out of the sequence and overflow of ptrdiff_t. | Induction over the number of steps. |
| C305 | The iterator with increments that overflow or wrap depending on the type, and the loop over the range. | Induction over the distance to the end. |
| C306 | The loop of to_reference_vector with bounded memory, and the comparisons. | Induction over the memory left. |
| C307 | Increments, decrements, sums and differences of the three classes over a list of iterators; the views derived from a prop_const_ptr. | Simulation of pointers over all programs. |
| C308 | The computation of the end with promotions and overflow, and the loop with the comparison. | Induction over the elements left. |
| C309 | from_chars for integers of base 10 and the use of its result. | Induction over the digits; round trip with the decimal text. |
| C310 | The three ways to store a callable, the choice of the constructor for copies, and calls. | Simulation of copies by value over all programs; least fixed point for calls that do not end. |
| C311 | Assignments, the visitors and the deduction of their return type. | Induction over the assignments. |
| C312 | Splitting the arguments into tuples of values, with what is moved from, in either order; the parameters the function gets. | Induction over the arguments. |
| C313 | The constructor, deduction, get and apply. | Induction over the pack. |
| C314 | The test for repeated options and the search through the pack. | Induction over the options; permutations. |
| C315 | The encoding of outer and inner positions, the loops that fill the table of locations, the overloads of get by value category, tuple2_cat and apply; none stands for a call that does not compile. | Induction over the tuples and their elements, with the encoding inverted for halves below 2^32. |
| C316 | The accessors, apply and the folds of the comparisons. | Induction over the elements. |
| C317 | The choice between a stage and what it returns without arguments, the recursion over the stages, composition and the treatment of arrays. | Induction over the stages. |
| C318 | The loops of both stages, the predicates, the view of a pointer and the sampling filter with its iterator. | Induction over the range. |
| C319 | Views that refer to their range, stages that make ranges that own their rows, and the lifetime of what a stage returned. | Induction over the stages. |
| C320 | The members by the algorithms of the library, the const members by vectors of references, from and the operators. | Induction over the programs and lists, and the model of to_reference_vector. |
| C321 | All members but the conversions, and the free functions. | Induction over programs, cases of null. |
| C322 | The loops, the table of powers, the texts of the lowest values, the checks and overflow, and the conditions of both templates. | Induction over the digits, most significant first. |
| C323 | Floating point numbers as multiples of the smallest one, rounding to nearest as a hypothesis, the loop and its two cases; overflow to infinity is left out. | The error of a rounded addition is a floating point number (exactness of the sum of the larger and the smaller one), then induction over the list. |
| C324 | Moving of iterators between the begin and the end of each range, subscripts and differences. | Induction over the ranges and over the steps. |
| C325 | The function object with copies or references of its ranges, the three kinds of input, the view and the lifetime of the object. | By the theorem about zips, with the rows written as rows of all the ranges. |
| C326 | The picking of columns with indices checked when compiled, and which ranges it compiles for. | Induction over rows and indices. |
| C327 | The algorithms of the library they call, with an order of projections, and which calls with an order compile. | Induction over the list with the extremum so far as invariant. |
| C328 | std::clamp with its precondition, the stage with its bounds as values or references, and which types compile. | Cases of the order, by the theorem about Map. |
| C329 | The bodies of the operators as statements on *this and on a copy, with const checked, and the assignments. | Computation for every state. |
| C330 | A heap of arrays, the objects with their pointers and flags, and every special member function. | Invariant over the program: each array has at most one owner. |
| C331 | strcmp on memory with a terminator and the comparison operators. | Induction over the texts. |
| C332 | The four overloads byte by byte, the bytes of a number on a machine that has the least significant one first, and the assertion of to_array_of. | Bits that do not overlap are added; induction over the bytes. |
| C333 | The assertions with the type deduced for lvalues and rvalues, and conversion of integers. | Inclusion of the ranges of the types. |
| C334 | The two positions and std::advance with its precondition. | Induction over the program. |
| C335 | The folds over the arguments and the constructors of the helper. | Induction over the arguments. |
| C336 | The loop modulo 2^64 with characters that have a sign, and the seed of file, date, time and line. | Induction over the text; 33 is odd, so a round can be undone. |
| C337 | The conversion of the seed to the type of the numbers and the constructor of the engine of the library. | Arithmetic modulo powers of two. |
| C338 | The tables of all overloads with their parameters and results, overload resolution of C++17, and the conversions of the arguments. | The tables are finite and checked by the kernel for all types; the values by arithmetic modulo powers of two. |
| C339 | The tables of overloads, overload resolution with the built-in candidates, and the conversions before the comparison. | The tables are finite and checked by the kernel for all types; the values by arithmetic modulo powers of two. |
| C340 | The tables of overloads of << and >>, the shift in the promoted type and the cut to the result; ++, --, ~. | The tables are checked by the kernel for all types; the values by arithmetic modulo powers of two. |
| C341 | Positions in the list of cells, ++ and -- with their loops, and the functions begin, at_end, valid. | Induction over the rest of the cells. |
| C342 | Copy construction and assignment of a cell, and the copy of the array of cells. | The cells are the same; a witness for the copy constructor. |
| C343 | The functions for each side and operator over the comparison of views. | From the specification of compare (C217). |
| C344 | operator+ for pointers, std::string and arrays with their assertions. | From the specification of append (C220). |
| C345 | The scaling loop with exact products by powers of two, the cast to uint64_t (undefined out of range), the leading zeroes and the parts put together. | The float is a count of units in the last place; the loop multiplies until the leading bit lies in a known window, and the bits are read off by arithmetic. |
| C346 | Both versions of intxp for float and double, with the cast to uint64_t that is undefined out of range. | The same invariant of the scaling loop as for C345, compared with the value of the number as a fraction. |
| C347 | find and the loop of remove with a value that is read anew at every comparison, from a place of the memory if it is a reference into it; erase_remove and erase_remove_if. | A value that does not change makes the loop that of remove_if; a reference to the first element is followed through the loop. |
| C348 | The three alternatives, every constructor, assignment and setter, and get, throw_if_exception, get_exception_ptr and get_exception_message. | An invariant over lists of operations; the last operation determines the state. |
| C349 | compare, the six operators, the hash, and operator< of heap_value, for any order of values. | Case analysis with the axioms of a strict weak order. |
| C350 | operator-- of both iterators with their loops, over the cells of a table. | Induction over the cells before the position. |
| C351 | Both overloads over streams with a position, the text they copy, the split and the converters; apply_string and construct_from. | The split into parts of C62 with the converters applied to each. |
| C352 | expecting of two arguments and of one, passed by value to cmp_equal, and the handlers of expecting_exception in both builds. | C291 for the integers, and cases of the outcome of the expression and the predicate. |
| C353 | The smallest duration of nothing and the loop of runs with its check and durations. | Induction over the runs that are left, and over the durations of nothing for their minimum. |
| C354 | The product of size and count modulo 2^64, aligned_alloc, and the construction of an object in the block. | Arithmetic of multiples and of the wrapped product. |
| C355 | The lambda whose parameter has the type of the value, with the conversion of the elements that this brings, and find_if. | Induction over the elements; floor and ceiling for the conversion to int. |
| C356 | operator<< of the views and of bounded strings with the conversions of the width. | C88 with the converted width, and that nothing fails on a healthy stream. |
| C357 | The bits of the state, the function for each character and the texts fed to it; the end of the function without return is undefined. | The states that occur are found by induction over the text; fields by induction over their length and number. |
| C358 | end, the comparisons, the difference and the loop over the positions, with the moves of C48. | Fixpoint induction for the loop that never ends; arithmetic modulo the size for the differences. |
| C359 | The rounding to pages in double with ties to even, mmap, munmap, mremap and malloc with their failures, and the checks of the allocators. | Rounding is exact below 2^53 and monotone at multiples of the page above; the mappings are lists. |
| C360 | The constants as the code computes them, from shifts, bits and three tenths of the digits. | Bounds of bit vectors; that 10^3 is at most 2^10 for the decimal digits of any width. |
| C361 | The calls of the class and the same calls of the general model of C45 with capacity 0. | Each call by itself, and induction over the calls. |
| C362 | The tables of all overloads with the types they take and compute in, the resolution of a call, and the value left. | The facts about the finitely many overloads are decided over the tables; values by arithmetic modulo powers of two. |
| C363 | Both constructors of the proxy with the checks of debug builds, its members, and what a function for C strings reads from the pointer. | Induction over the characters; the flag of views made by members comes from C19. |
| C364 | The loops, with the calls made and the result; the function of for_each_subset may change the container and fail. | Induction over the elements and over the length of the interval. |
| C365 | Blocks and variables of the pointer type with the safe_pointer of C113, the functions of the allocator, and the call through std::allocator_traits with its copy of the pointer. | An invariant between variables and blocks, kept by each operation, gives exactly the errors that are missed. |
| C366 | Both loops on one block that holds input and output, with what moving leaves of an element. | Induction over the number of elements; for an output that begins inside of the input the result is given by a remainder. |
| C367 | Containers and inserters that point to them, function iterators with the state of their functions, and the members of all of them. | Induction over the program, with the container of every inserter as invariant; sets by induction over the values. |
| C368 | The calls with their three places, owners that are copied and given up at any time, and the count of std::shared_ptr; the function does not reset the pointer it is given. | An invariant between the count and the destructions, kept by every step of every schedule. |
| C369 | Types as bytes of values and values of bytes, bit_cast, and both functions with a visitor that may throw and may reach the value itself. | The laws of the types; unsigned numbers and arrays of bytes are shown to have them by induction over the bytes. |
| C370 | The buffers of a program with block, capacity, elements and allocator, the blocks allocated, and constructors, assignment, swap and destructor. | Invariant over all sequences of calls that blocks and buffers correspond, with counterexamples for the rest. |
| C371 | Integer types by width and sign, conversions, the promotion of narrow types, copy_sign and signbit. | Cases of the signs over the range of the type, with the counterexamples for every width. |
| C372 | The six overloads, strlen, copy and copy_n to a back inserter. | Induction over the copies and the scan for the zero; the result for every array, with a counterexample. |
| C373 | Handles, get_node, value, the assignment through it, operator< and programs over several graphs. | Invariant: ids given are below cur_id; the values of nodes along any program by induction. |
| C374 | Both kinds of Reverser, the reverse iterator and the range-based for over them. | Induction on the container from its end, generalised over what was met. |

## 4. Findings (places where the code violates the property)

Each line is a theorem with a concrete witness (or a general statement) that the
property fails for the code as modelled.  Generated by `tools/gen_findings.py` from
the comments of the theorems.

* **C03** `C03_descending_violated` (Sort/SortTo.lean): The code does not have **C03** for a descending comparison: sorting `[2, 1]` into an output range holding `[9, 9]` leaves a 9 there, so the output is not a permutation of the input.
* **C03** `C03_negative_violated` (Sort/SortTo.lean): The code does not have **C03** for negative values: whenever the input holds a negative number that is not a multiple of ten, `sort_to` indexes outside its array of ten counters.
* **C07** `C07_insert_wraps_violated` (Vector/Props.lean): C07, violated: `insert( pos, n, x )` with `size() + n` wrapping around writes behind the block instead of throwing `length_error`: a vector with one element, `n = 2^64 - 1`, and any `max_size()` from 4 on.
* **C08** `C08_leak_violated` (Vector/Overwrite.lean): C08, violated: if `n` is less than the old size and the operation fills its buffer, the elements from `n` on are never destroyed: they stay objects behind the end.
* **C08** `C08_resize_and_overwrite_violated` (Vector/Overwrite.lean): C08, violated: if the operation reports more than the old size and less than `n`, the call destroys objects below the block. For every vector, every `n` and every operation.
* **C09** `C09_never_appends_violated` (Vector/Overwrite.lean): C09, violated: `block_append_from` never returns normally unless the source is empty: it runs forever, throws, or has undefined behaviour. For every vector, source and block size, and any amount of memory.
* **C09** `C09_zero_block_violated` (Vector/Overwrite.lean): C09, violated: with `block_size = 0` it runs forever.
* **C10** `C10_class_violated` (Vector/SplitBuf.lean): C10, violated for class types: sliding a non-empty buffer assigns to storage that holds no object.
* **C10** `C10_four_pushes_violated` (Vector/SplitBuf.lean): The fourth `push_back` on a buffer of a class type does that, whatever is pushed and whatever follows.
* **C10** `C10_reserve_below_size_violated` (Vector/SplitBuf.lean): C10, violated: `reserve( n )` with `n` below the size writes past the end of a block of `n` elements, for every element type.
* **C10** `C10_reserve_violated` (Vector/SplitBuf.lean): C10, violated: `reserve( n )` never increases the capacity.
* **C11** `C11_pop_empty_violated` (StringView/History.lean): C11 does not hold for `pop_back( )` and `pop_front( )` on an empty view, though the first is documented to leave an empty view alone: they read a character that is not there.
* **C12** `C12_signed_char_finding` (StringView/Compare.lean): Where `char` is signed, its order is not that of the bytes: the order of texts then differs from that of `std::string_view`, which compares bytes as `unsigned char`.
* **C13** `C13_find_beyond_violated` (StringView/Find.lean): C13 does not hold for `find` with a position beyond the end: `std::string_view` returns `npos`, the code forms a pointer outside the text and a length that wraps around.
* **C14** `C14_find_char_constexpr_violated` (StringView/Find.lean): C14 does not hold at compile time: the search starts `2 * pos` characters into the text, and the result differs from that at run time.
* **C14** `C14_find_char_runtime_violated` (StringView/Find.lean): C14 does not hold at run time: the position found is counted from `pos`.
* **C15** `C15_find_last_not_of_if_violated` (StringView/Find.lean): C15 does not hold for `find_last_not_of_if` with the size as position: it reads the character past the end.
* **C15** `C15_find_last_not_of_violated` (StringView/Find.lean): C15 does not hold for `find_last_not_of` with the size as position and an empty set: 3 is no position of the text.
* **C15** `C15_find_last_of_bytes_violated` (StringView/Find.lean): C15 does not hold for `find_last_of` with a position, one byte characters: the `b` at 3 is beyond position 1.
* **C15** `C15_find_last_of_position_violated` (StringView/Find.lean): C15 does not hold for `find_last_of` with a position, wider characters, whatever the text: it finds the last character of the set in the last `pos + 1` characters, and reports the position before these if there is none.
* **C15** `C15_find_last_of_violated` (StringView/Find.lean): C15 does not hold for `find_last_of` with a position, wider characters: looking for 2 up to position 0 of `1, 2, 3` finds nothing there but reports position 1, and up to position 1 of `2, 1, 1` reports position 0 although the part it searches, `1, 1`, is the other end.
* **C16** `C16_pop_back_until_if_keep_violated` (StringView/Views.lean): C16 does not hold for `pop_back_until( pred, nodiscard )`: the delimiter goes to the result.
* **C16** `C16_pop_back_until_keep_violated` (StringView/Views.lean): C16 does not hold for `pop_back_until( where, nodiscard )`: the delimiter is removed.
* **C16** `C16_try_pop_back_until_violated` (StringView/Views.lean): C16 does not hold for the other forms of `try_pop_back_until`: with `nodiscard` the delimiter is removed all the same; for a character it is in the result, and with `nodiscard` in both parts; for a predicate likewise.
* **C16** `C16_try_pop_front_until_if_violated` (StringView/Views.lean): C16 does not hold for `try_pop_front_until( pred )`: without a delimiter it still removes a character.
* **C18** `C18_contains_count_violated` (StringView/Compare.lean): C18 does not hold for `contains( s, pos, count )`: the position is used as a truth value, so a text that starts with the needle does not contain it and one that does not contain it does.
* **C19** `C19_zero_terminated_violated` (StringView/History.lean): C19 does not hold for the four others: of the view of the first two characters of `1, 2, 3, 0`, which is followed by 3, they make views that claim to be followed by zero.
* **C20** `C20_search_last_violated` (StringView/Find.lean): C20 does not hold for `search_last`: of two occurrences it returns the first, and a position if there is none.
* **C20** `C20_search_violated` (StringView/Find.lean): C20 does not hold for `search`: the text occurs in itself, and a suffix is not found from where it starts.
* **C21** `C21_array_violated` (Bits/Fnv.lean): C21 does not hold for character arrays: the hash covers the terminating zero, so that it differs from the hash of the same text as a view.
* **C21** `C21_op_cstr_violated` (Bits/Fnv.lean): C21 does not hold for the function object called with a `char const *`: a character from 128 on is sign extended.
* **C23** `C23_empty_range_aborts` (Algorithm/BinarySearch.lean): **C23** finding: searching an empty range does not return `last`, it aborts.
* **C26** `C26_not_equal_empty_violated` (Algorithm/Compare.lean): **C26** finding: two empty ranges are reported both equal and not equal.
* **C26** `C26_not_equal_violated` (Algorithm/Compare.lean): **C26** finding: `not_equal` is not the negation of `equal`: two ranges that differ, but not at their first element, are reported as not "not equal".
* **C29** `C29_find_unsorted_empty_violated` (Algorithm/Sorted.lean): **C29** finding: `find_unsorted` of an empty range has undefined behaviour.
* **C30** `C30_split_violated` (Algorithm/Split.lean): **C30** finding: the part after the last delimiter is lost: splitting `1,0,2` at `0` gives one part only, so no joining with the delimiter gives back the text.
* **C31** `C31_begin_at_ub` (Algorithm/Split.lean): **C31** finding: the count `2^63` makes `begin_at` negate `PTRDIFF_MIN`.
* **C31** `C31_begin_at_violated` (Algorithm/Split.lean): **C31** finding: `begin_at( c, SIZE_MAX )` is `begin`, not `end`, for every container.
* **C31** `C31_safe_next_violated` (Algorithm/Split.lean): **C31** finding: `safe_next( it, last, SIZE_MAX )` does not move.
* **C31** `C31_safe_prev_violated` (Algorithm/Split.lean): **C31** finding: for counts beyond `PTRDIFF_MAX`, `safe_prev` does not move, and `2^63` makes it negate `PTRDIFF_MIN`.
* **C32** `C32_are_equal_three_violated` (Algorithm/Compare.lean): **C32** finding: already `are_equal( 1, 1, 2 )` is true.
* **C32** `C32_are_equal_violated` (Algorithm/Compare.lean): **C32** finding: `are_equal( 1, 1, 2, 2 )` is true.
* **C33** `C33_partition_range_zero_violated` (Algorithm/Split.lean): **C33** finding: zero parts divides by zero.
* **C35** `C35_pop_back_violated` (Bits/BitQueue.lean): C35 does not hold for `pop_back` of `daw::bit_queue` (16 bits, values of 8 bits): with more than 8 bits in the queue the result is cut before it is shifted, and the oldest byte comes back as zero.
* **C35** `C35_pop_back_wide_violated` (Bits/BitQueue.lean): C35 does not hold for `pop_back` of 31 bits or more: the mask overflows an `int`.
* **C35** `C35_push_all_violated` (Bits/BitQueue.lean): C35 does not hold for a push of all bits of a queue of 32 or 64 bits at once: the shift is undefined.
* **C36** `C36_skip_violated` (Bits/BitStream.lean): C36 does not hold for `skip_bits`: asked to skip three bits it skips none.
* **C36** `C36_wide_violated` (Bits/BitStream.lean): C36 does not hold for values of 32 or 64 bits: whatever is asked for, reading a value shifts the whole word out, which is undefined behaviour.
* **C37** `C37_unset_violated` (Bits/Bitset.lean): C37 does not hold for `unset`: clearing bit 4 also clears bit 0.
* **C38** `C38_construct_violated` (Bits/StaticBitset.lean): C38 does not hold for construction: of exactly 64 bits none is kept, and of 70 bits the mask of the last element keeps 58 of 64 in place of 6.
* **C38** `C38_not_violated` (Bits/StaticBitset.lean): C38 does not hold for the complement: a set of 8 bits without any has, complemented, more bits than the full set.
* **C38** `C38_set_violated` (Bits/StaticBitset.lean): C38 does not hold for `set_bit`, `clear_bit` and `get_bit`: they use twice the number of the bit as the mask. Setting bit 0 changes nothing, setting bit 3 sets bits 1 and 2, and a set bit 5 is not seen.
* **C38** `C38_shl_violated` (Bits/StaticBitset.lean): C38 does not hold for shifting left: by no bits and by 64 bits or more it is undefined, between 33 and 63 bits the carry loses bits, and the result is not cut to the width.
* **C38** `C38_shr_violated` (Bits/StaticBitset.lean): C38 does not hold for shifting right by 64 bits or more, which is undefined, nor by 33 to 63 bits, where the carry loses bits.
* **C39** `C39_network_violated` (Bits/Reverse.lean): C39 does not hold for `network_to_host_endian` on a little endian machine: it changes nothing, so that a value in network order is not read back.
* **C39** `C39_to_native_violated` (Bits/Reverse.lean): C39 does not hold for `to_native_endian` of the other byte order, on either machine: it changes nothing.
* **C41** `C41_unsigned_violated` (Bits/Natural.lean): C41 does not hold for unsigned types: a difference below zero wraps around to a large number and is not reported; a sum that wraps around is zero; a value of a wider type is checked before it is cut.
* **C41** `C41_zero_violated` (Bits/Natural.lean): C41 does not hold: quotient and remainder may be zero and are not checked.
* **C42** `C42_math_pow_violated` (Bits/Power.lean): C42 does not hold for `math::pow`: it squares the base as often as the exponent says, so for every exponent but zero the result is, where it fits, the base to the power of `2^e`.
* **C42** `C42_narrow_violated` (Bits/Power.lean): C42 does not hold for unsigned types of 16 bits: the product is computed in `int`, where it may overflow.
* **C42** `C42_pow10_violated` (Bits/Power.lean): C42 does not hold for the 19th power of ten: `uintmax_t` has it, but the table is read beyond its end.
* **C42** `C42_pow_negative_violated` (Bits/Power.lean): C42 does not hold for negative exponents and unsigned types: the exponent is compared as an unsigned number, so it counts down to the least `int` and overflows. For signed types a base of zero divides by zero.
* **C43** `C43_is_zero_violated` (Bits/Float.lean): C43 does not hold for `is_zero_impl`, which is true for every number whose significand field is zero, one for example, nor for `float_parts_t::is_nan`, which knows one of the patterns only.
* **C43** `C43_set_exponent_violated` (Bits/Float.lean): C43 does not hold for setting the exponent to zero: the result is one, whatever the sign and significand were.
* **C44** `C44_ctz_violated` (Bits/Zeros.lean): C44 does not hold for the portable `count_trailing_zeros` and a word whose only one is the highest: negating it as a signed number is undefined.
* **C44** `C44_portable128_violated` (Bits/Zeros.lean): C44 does not hold for the portable version and 128 bits: it gives 128 for every value.
* **C44** `C44_portable32_violated` (Bits/Zeros.lean): C44 does not hold for the portable version and 32 bits: only the version for 64 bits exists, so there are 32 too many.
* **C45** `C45_construct_violated` (Containers/BoundedVector.lean): C45 does not hold for the constructor from two iterators with more elements than fit: it writes outside the array.
* **C45** `C45_erase_all_violated` (Containers/BoundedVector.lean): C45 does not hold for erasing all elements, which ends the program.
* **C45** `C45_erase_position_violated` (Containers/BoundedVector.lean): C45 does not hold for the position returned by `erase`: unless the last element was erased it is one past the element that follows the erased one.
* **C45** `C45_full_violated` (Containers/BoundedVector.lean): C45 does not hold for a full vector: `push_back` writes outside the array.
* **C45** `C45_has_room_violated` (Containers/BoundedVector.lean): C45 does not hold for `has_room`: it tells that there is no room left for more than `count` elements.
* **C45** `C45_pop_front_violated` (Containers/BoundedVector.lean): C45 does not hold for `pop_front`: on a vector that has elements it always throws; on an empty one it adds an element.
* **C45** `C45_push_place_violated` (Containers/BoundedVector.lean): C45 does not hold for `push_back( )` on a full vector: the reference is to a place outside the array, and the size is larger than the capacity.
* **C45** `C45_swap_violated` (Containers/BoundedVector.lean): C45 does not hold for `swap` with a shorter vector: the elements beyond the shorter one's size are lost.
* **C46** `C46_emplace_violated` (Containers/Ring.lean): C46 does not hold for `emplace_back`: it moves the head instead of the tail. On an empty ring the size becomes `2^64 - 1`, and the element is not in the queue.
* **C46** `C46_release_violated` (Containers/Ring.lean): C46 does not hold without assertions: a full ring does not refuse the element, and the oldest one is gone.
* **C46** `C46_wrap_violated` (Containers/Ring.lean): C46 does not hold for very long histories: the counters wrap at `2^64`, which is not a multiple of every capacity. After `2^64 - 1` elements have passed a ring of three, two are pushed and the second takes the place of the first.
* **C47** `C47_default_violated` (Containers/KeepN.lean): C47 does not hold for every default value: with zero as default, no value is ever kept in ascending order.
* **C48** `C48_multiple_violated` (Containers/Circular.lean): C48 does not hold for sums that are negative multiples of the size: the position is then the size itself, and the element read is outside the container.
* **C49** `C49_erase_violated` (Containers/BoundedHashMap.lean): C49 does not hold for `erase` in the middle of a chain: whatever the hash, if two different keys have the same hash, then erasing the first one makes the second one, which was not erased, disappear from a map of two or more places; inserting it again makes two entries of it.
* **C49** `C49_find_violated` (Containers/BoundedHashMap.lean): C49 does not hold for `find` of a key that is not there: unless the map is full the iterator is not `end( )`, but the position of an item without value.
* **C49** `C49_full_violated` (Containers/BoundedHashMap.lean): C49 does not hold for full maps: a new key is not refused, the call is undefined.
* **C49** `C49_zero_violated` (Containers/BoundedHashMap.lean): C49 does not hold for capacity zero: even the test for a key is undefined.
* **C50** `C50_zero_violated` (Containers/HashSet.lean): C50 does not hold for a set of capacity zero: inserting a key does not throw, it divides by zero.
* **C51** `C51_default_violated` (Containers/PerfectTable.lean): The default key is reported although it was not given: the unused places hold it.
* **C51** `C51_distinct_violated` (Containers/PerfectTable.lean): Distinct hashes do not suffice: with the hashes 0 and 4 no salt separates two keys among four places.
* **C52** `C52_collision_violated` (Containers/StaticHash.lean): Two keys of one hash share their value, and with more keys than hashes there are such keys.
* **C52** `C52_find_violated` (Containers/StaticHash.lean): A key that is not there is found at a place of the table, as a key that is there.
* **C52** `C52_full_violated` (Containers/StaticHash.lean): A key beyond the capacity is stored behind the end of the array.
* **C55** `C55_bfs_once_violated` (Graph/Walk.lean): The number of visits of `bfs_walk` can grow as a power of two: on a graph of `2 * L` nodes, whatever the order of the children, it makes `2 ^ L - 1` visits.
* **C55** `C55_dfs_once_violated` (Graph/Walk.lean): `dfs_walk` visits a node twice when two edges lead to it.
* **C56** `C56_reach_violated` (Graph/Mst.lean): With two roots `mst` can cut what one of them reaches: the edge removed for the sake of the second root was the only way for the first.
* **C57** `C57_assign_empty_violated` (Memory/RcPtr.lean): So does assigning an empty handle of a single object.
* **C57** `C57_reset_violated` (Memory/RcPtr.lean): Resetting a handle of a shared object leaves the handle pointing to it without being counted: destroying the handle destroys the object under the other handle, whose use is undefined.
* **C58** `C58_longest_violated` (Memory/AtomicWait.lean): Waiting for the longest time there is is undefined unless the clock is at its epoch or before.
* **C59** `C59_keys_collide_violated` (Hash/Sip.lean): Different keys, same hashes: a byte from 128 at the start of a half of the key hides the seven bytes after it.
* **C59** `C59_sign_violated` (Hash/Sip.lean): A key or a full block with a byte from 128 gives another hash, and so does a big endian machine.
* **C60** `C60_sign_violated` (Hash/Metro.lean): An odd byte from 128 gives another hash.
* **C61** `C61_violated` (Parse/Int.lean): The least value of `int` and of `std::int64_t` overflows while it is read, which is undefined; a minus sign alone is read as zero; unrepresentable numbers are reduced for unsigned and narrow types and are undefined for the others; and zeros in front of a number can make it unreadable.
* **C62** `C62_empty_violated` (Parse/Split.lean): With an empty delimiter every view is empty.
* **C62** `C62_rest_violated` (Parse/Split.lean): Text behind the last view asked for is ignored without notice.
* **C63** `C63_assert_violated` (Parse/Helper.lean): `assert_equal` throws for equal values, `assert_not_equal` for different ones, and `assert_empty` for an empty range.
* **C63** `C63_crlf_violated` (Parse/Helper.lean): Asked for one line end, `is_crlf` finds it only in front.
* **C63** `C63_find_any_loop_violated` (Parse/Helper.lean): `find_first_of_any` never returns when the second value of the range is not the second of the sequence.
* **C63** `C63_find_any_single_violated` (Parse/Helper.lean): `find_first_of_any` does not find a value that is all of the range, whatever follows it in the sequence.
* **C63** `C63_find_any_violated` (Parse/Helper.lean): `find_first_of_any` of one value answers with the first position of the range, wherever the value is.
* **C63** `C63_from_to_violated` (Parse/Helper.lean): Between two equal values, as quotes are, `from_to` finds nothing.
* **C63** `C63_split_violated` (Parse/Helper.lean): When a divider is in the range, `split_if` and `split_on` never return.
* **C63** `C63_trim_left_violated` (Parse/Helper.lean): A text of white space only is not trimmed at all.
* **C63** `C63_trim_right_violated` (Parse/Helper.lean): Two words: the second is cut off.
* **C63** `C63_until_values_violated` (Parse/Helper.lean): `until_values` therefore stops at the first value that is not in the container.
* **C63** `C63_value_in_violated` (Parse/Helper.lean): `value_in` says whether the value is *not* in the container.
* **C64** `C64_violated` (Pipelines/Chunk.lean): Otherwise the last part reaches past the end.
* **C64** `C64_zero_violated` (Pipelines/Chunk.lean): `Chunk( 0 )` never ends.
* **C65** `C65_violated` (Pipelines/Chunk.lean): A range that is shorter than the window, but not empty, gives a window that reaches past the end.
* **C66** `C66_distance_violated` (Pipelines/Split.lean): Counting the parts with `std::distance` fails: two increments without a dereference between them.
* **C66** `C66_empty_violated` (Pipelines/Split.lean): An empty range as the delimiter gives an empty part for every element: nothing of the range is left.
* **C66** `C66_range_violated` (Pipelines/Split.lean): Of a delimiter with several elements only the first is skipped: `a--b` split at `--`.
* **C66** `C66_trailing_violated` (Pipelines/Split.lean): A range and the same range with a delimiter behind it give the same parts.
* **C67** `C67_skip_violated` (Pipelines/Filter.lean): Counts beyond `PTRDIFF_MAX` move in front of the range.
* **C67** `C67_take_violated` (Pipelines/Filter.lean): Counts beyond `PTRDIFF_MAX`, such as `npos` for "all", are taken for negative ones.
* **C67** `C67_take_while_violated` (Pipelines/Filter.lean): `TakeWhile` leaves the longest prefix that satisfies the predicate out and gives the rest.
* **C68** `C68_violated` (Pipelines/Concat.lean): An empty range in front of one that is not empty is dereferenced.
* **C69** `C69_violated` (Pipelines/Concat.lean): An empty inner range, wherever it is, is dereferenced: the assert fails.
* **C71** `C71_alias_violated` (Memory/SpanWriter.lean): `w.write( buf[1], buf[0] )` at the start of `buf` stores `buf[1]` twice.
* **C75** `C75_self_push_violated` (Vector/SplitBuf.lean): C75, violated: pushing an element of the buffer itself when that reallocates reads it after it was destroyed. For every element type, every full buffer, both ends.
* **C81** `C81_consume_if_calls_violated` (Algorithm/Consume.lean): C81 does not hold: consuming the even numbers of `[2, 3]` calls `func` with 3, which stays, and not with 2, which is removed.
* **C82** `C82_not_equal3_violated` (Algorithm/Consume.lean): C82 does not hold for `not_equal` with one end iterator: different ranges with an equal element in one place.
* **C85** `C85_find_first_match_violated` (StringView/Find.lean): C85 does not hold for several needles: after a needle that agrees in its first characters the next one is compared from where that one stopped, and a needle that reaches the end stops the search for the others.
* **C86** `C86_pop_front_unsafe_violated` (StringView/Views.lean): C86 does not hold for `pop_front_unsafe( count )`: it returns the whole text.
* **C89** `C89_binary_violated` (Bits/StaticBitset.lean): C89 does not hold for the binary text: it is written from the place numbered by the last element on, so one in 8 bits is given as 128 would be, and three is undefined.
* **C89** `C89_binary_zero_violated` (Bits/StaticBitset.lean): C89 (finding). The binary text of a set of at most 64 elements whose first element is zero is undefined as soon as another one is not.
* **C89** `C89_zero_count_violated` (Bits/StaticBitset.lean): C89 does not hold for the zeros of a set whose width is no multiple of 64: those beyond the width are counted.
* **C90** `C90_is_even_violated` (Bits/Zeros.lean): C90 does not hold for `is_even`: it is true for the odd numbers, and only those.
* **C90** `C90_popcount_narrow_violated` (Bits/Zeros.lean): C90 does not hold for `popcount` of a negative number of a type narrower than `int`: the sign is counted for all bits up to 32. That of -1 as `signed char` is 32, not 8.
* **C90** `C90_round_up_violated` (Bits/Zeros.lean): C90 does not hold for `round_up_pow2` of a value above the highest power of two the type has: the result is zero.
* **C91** `C91_abs_violated` (Bits/Power.lean): C91 does not hold for the least value of narrower types: of `int` negating it is undefined, of `signed char` the result is not cut down, so that it is close to `2^64`.
* **C92** `C92_equality_violated` (Graph/Consistency.lean): Two different nodes of one graph compare equal, and different at the same time.
* **C93** `C93_child_order_violated` (Graph/Topological.lean): `std::sort` asks for a strict weak order; the order of the children is none, whatever strict weak order the caller gives.
* **C94** `C94_reverse_range_violated` (Graph/Topological.lean): Iterating over the reverse range is undefined on every graph that has anything to visit: the first step leaves the vector at its front.
* **C95** `C95_forgotten_violated` (Memory/AtomicWait.lean): A value that satisfies the predicate can be loaded and forgotten: the atomic object has it for a moment when the first loop looks, and the wait reports a timeout.
* **C96** `C96_deleter_violated` (Own/UniquePtr.lean): C96, the deleter: moving a `unique_ptr` does not take the deleter along; the object is deleted by a default constructed one.
* **C96** `C96_sentinel_violated` (Own/UniquePtr.lean): C96 does not extend to handles with another empty value: for a file descriptor deleter with `default_pointer_value = -1` and no validity check, the descriptor zero is never closed, and an empty `unique_ptr` closes minus one.
* **C97** `C97_le_violated` (Own/UniquePtr.lean): C97: `<=` is the negation of `<`, so it answers wrongly for every two different pointers.
* **C98** `C98_assign_violated` (Own/MaybeUnique.lean): C98, the move assignment: the same.
* **C98** `C98_move_violated` (Own/MaybeUnique.lean): C98 does not hold when a pointer that is not owned is moved: the move constructor takes the ownership flag after `release` has set it, so the new variable owns the object and deletes it.
* **C98** `C98_reset_violated` (Own/MaybeUnique.lean): C98 does not hold for `reset( p )` of an owner: the new object is deleted at once and again at the end.
* **C99** `C99_assign_empty_violated` (Own/Values.lean): C99 does not hold for the move assignment of a value to an empty `value_ptr`, while the copy assignment of the value works.
* **C99** `C99_copy_empty_violated` (Own/Values.lean): C99 does not hold for the copy of an empty `value_ptr`.
* **C101** `C101_moved_from_violated` (Own/Values.lean): C101 does not hold after a move: copying from, copy-assigning from or to, and writing to a moved-from `heap_value` are undefined.
* **C104** `C104_move_empty_violated` (Own/Resource.lean): C104: the move assignment from an empty (for example moved-from) variable is undefined.
* **C104** `C104_reset_violated` (Own/Resource.lean): C104 does not hold for `reset( )`: it deletes the resource and keeps it, and the destructor deletes it again.
* **C105** `C105_move_assign_violated` (Own/Resource.lean): C105 does not hold for the move assignment: the function of the target is never run and the other twice.
* **C105** `C105_move_violated` (Own/Resource.lean): C105 does not hold for the move constructor: both guards run the function.
* **C105** `C105_throw_violated` (Own/Resource.lean): C105 does not hold for a function that throws in `run_now`: the destructor runs it again.
* **C106** `C106_unwinding_violated` (Own/Resource.lean): C106 does not hold during stack unwinding: a destructor that runs a guarded scope to its normal end does not run the handler when the destructor is called because of an exception.
* **C107** `C107_assign_violated` (Own/Resource.lean): C107: every use of the copy assignment is undefined; it flows off the end of a function that returns a reference.
* **C110** `C110_moved_violated` (Own/Resource.lean): C110 does not hold for smart pointers: a moved-from `not_null` is null and its `get( )` undefined.
* **C111** `C111_null_ge_violated` (Own/Optional.lean): C111 does not hold for `nullopt >= optional`: the answer is the opposite for every optional.
* **C111** `C111_val_ge_violated` (Own/Optional.lean): C111 does not hold for `value >= optional` whenever the optional has a value: the answer is the opposite.
* **C112** `C112_bool_finding` (Own/Optional.lean): C112, `operator bool` as a test for a value is wrong: it also holds for an exception.
* **C112** `C112_from_code_as_violated` (Own/Optional.lean): C112 does not hold for `expected_from_code<Result>( f )`: the result is empty whatever `f` does, and `get` terminates the program.
* **C112** `C112_null_exception_violated` (Own/Optional.lean): C112 does not hold for a null `exception_ptr`, which `set_exception( )` and `expected_from_exception` store when no exception is being handled: `has_exception` holds and `get` is undefined.
* **C112** `C112_valueless_violated` (Own/Optional.lean): C112 does not hold after a copy threw in `set_value`: the object is neither empty nor has it a value or exception, and `get` is undefined.
* **C113** `C113_least_violated` (Own/SafePointer.lean): C113 does not hold for the least distance: the check itself overflows.
* **C113** `C113_single_violated` (Own/SafePointer.lean): C113 does not hold for a pointer made from a single pointer: moving it is undefined, and so is reading it.
* **C114** `C114_index_violated` (Own/SafePointer.lean): C114 does not hold: `p[n]` and `*( p + n )` read the first element for every `n` inside the array and also one past its end.
* **C114** `C114_past_end_violated` (Own/SafePointer.lean): C114: an element past the end is read without a stop.
* **C115** `C115_end_violated` (Own/SafePointer.lean): C115 does not hold for the end of the array on the right: `p - end` stops the program.
* **C119** `C119_single_violated` (Random/Shuffle.lean): C119 does not hold for `RandomInteger` with equal inclusive bounds: it throws although there is exactly one value, where `randint` returns it.
* **C121** `C121_assign_violated` (Own/StackFunction.lean): C121 does not hold for the assignment of such a callable: the destructor of the temporary has run before the function is first called.
* **C121** `C121_copy_violated` (Own/StackFunction.lean): C121 does not hold for the copy of a function whose callable has a destructor (for example a lambda that captures a string): the bytes are copied, and the destructor runs for both, which is undefined.
* **C121** `C121_lvalue_violated` (Own/StackFunction.lean): C121 does not hold for a function made from an lvalue: it keeps a reference, not a copy. After the callable is gone the call is undefined, where the program with values makes the call.
* **C122** `C122_equal_violated` (Iter/Iota.lean): C122 fails for `==` and `<=` on signed types: five equals three, and three is not at most three.
* **C122** `C122_greater_violated` (Iter/Iota.lean): C122 fails for `>`: it never holds, for no type and no values.
* **C122** `C122_overflow_violated` (Iter/Iota.lean): C122 fails when the difference is not a value of the type: it wraps around for the types below `int`, and is undefined behaviour for the others.
* **C122** `C122_unsigned_violated` (Iter/Iota.lean): C122 fails for every unsigned type: any two iterators are equal, whatever their values.
* **C123** `C123_add_assign_always_violated` (Iter/Iota.lean): C123 fails for every step other than one: `+= n` then never is `+ n` while nothing overflows.
* **C123** `C123_add_assign_violated` (Iter/Iota.lean): C123 fails for `+=` and `-=`, which ignore the step: `it + 2` of `0, 5, 10, ..` is ten, `it += 2` is two.
* **C123** `C123_range_distance_violated` (Iter/Iota.lean): C123 fails for the iterators of `iota_range( start, last, step )`: the end has a step of one, so that `end() - begin()` is the difference of the values, whatever the step, and not the number of increments from one to the other.
* **C124** `C124_down_violated` (Iter/Iota.lean): C124 fails for steps below zero: a range that counts down is empty.
* **C124** `C124_unsigned_violated` (Iter/Iota.lean): C124 fails for every unsigned type: the loop over `iota_range( start, last, step )` never runs its body.
* **C125** `C125_distance_violated` (Iter/Strides.lean): C125 fails for distances, which count elements and not chunks: `( it + n ) - it` is `n` times the size of a chunk, so it is `n` only for chunks of one element.
* **C125** `C125_minus_case_violated` (Iter/Strides.lean): C125 fails: taking one back from the second chunk does not give the first one, and the last chunk has no predecessor.
* **C125** `C125_minus_violated` (Iter/Strides.lean): C125 fails for `-=` and `it - n`, which move forward: they are `+=` and `it + n`.
* **C125** `C125_rest_violated` (Iter/Strides.lean): C125 fails when the size of the chunks does not divide the number of elements: the loop runs over the end, which is undefined behaviour, for every block and every such size.
* **C126** `C126_plus_violated` (Iter/Strides.lean): C126 fails for `+` and `-`, which move the wrong way: `it + n` is not what `n` increments give, `it - n` is, and `( it + p ) - it` is `-p`.
* **C126** `C126_skip_violated` (Iter/Strides.lean): C126 fails for a loop that skips with `+=`: after skipping two of five characters seven are left.
* **C129** `C129_at_violated` (Iter/Checked.lean): C129 fails for `at`: argument zero, the name of the program, is refused.
* **C129** `C129_order_violated` (Iter/Checked.lean): C129 fails for the order: between two iterators into the same arguments `<` and `>` never hold and `<=` and `>=` always do, whatever the positions are.
* **C130** `C130_deref_end_violated` (Iter/Checked.lean): C130 fails: the checks let a read at the end of the container pass, which is undefined behaviour.
* **C130** `C130_distance_violated` (Iter/Checked.lean): C130 fails: the distance from a later iterator to an earlier one, which is negative, aborts.
* **C130** `C130_moves_violated` (Iter/Checked.lean): C130 fails: `++` at the end, `--` at the beginning and `-=` of a negative number leave the container unnoticed.
* **C130** `C130_plus_end_violated` (Iter/Checked.lean): C130 fails: the valid step to the end of the container aborts with `+`, though `+=` makes it.
* **C131** `C131_flags_violated` (Iter/Checked.lean): C131 fails: whatever checks are asked for, the flags never ask for a check of `++` or `--`; there is a check of `*` when any of the three was asked for.
* **C131** `C131_moves_violated` (Iter/Checked.lean): C131 fails: with all checks asked for, an iterator over the whole block that reached its end is moved further by `++`, and one at the beginning further back by `--`: undefined behaviour and no exception.
* **C131** `C131_part_violated` (Iter/Checked.lean): C131 fails: with a part of the block, `++` walks over the given end into the elements behind it, and reading there is not noticed any more.
* **C131** `C131_postfix_violated` (Iter/Checked.lean): C131 fails for the postfix operators: they do not move the iterator, and return the moved one.
* **C132** `C132_null_violated` (Iter/Find.lean): C132 fails for the constructor without an end: when nothing satisfies the filter the search runs out of the block.
* **C133** `C133_visits_violated` (Iter/Find.lean): C133 fails on every range that is not empty: what the loop sees is never what it should see.
* **C135** `C135_assign_violated` (Iter/Erased.lean): C135 fails: assigning an iterator of another type deletes the old one through the table of the new type.
* **C135** `C135_move_assign_violated` (Iter/Erased.lean): C135 fails: a move assignment leaks the iterator the target held, which no object owns any more.
* **C136** `C136_insert_never_returns_finding` (Vector/Input.lean): C136: with that library no call of it ever returns to its caller other than by an exception.
* **C136** `C136_insert_violated` (Vector/Input.lean): C136, violated: with the `std::move_iterator` of C++20 as published, whose concept is input iterator, `insert` calls itself without end, even if there is room for all elements, and also if there are none.
* **C137** `C137_mask_lsb_violated` (Bits/Masks.lean): For a signed type of at least 32 bits C++17 leaves `mask_lsb` undefined as soon as two bits are to be cleared; and no bit to be cleared costs the sign bit, as for `mask_msb`.
* **C137** `C137_mask_msb_violated` (Bits/Masks.lean): `mask_msb<int>( 0 )` should mask nothing and masks the sign bit.
* **C139** `C139_all_violated` (Bits/Masks.lean): With several bits asked for, `are_set` does not tell whether they are all set, even if they come in one mask.
* **C142** `C142_distance_violated` (Pipelines/Zip.lean): The distance from begin to end is the length of the first range, not the number of tuples.
* **C142** `C142_equality_violated` (Pipelines/Zip.lean): Between iterators that are not in step, as the end of ranges of different length is, `!=` is not the negation of `==`: at the end of the loop the iterator is still not equal to the end.
* **C142** `C142_loop_equality_violated` (Pipelines/Zip.lean): A loop that ends at `==`, as the generic algorithms may write it, reads past the shorter range.
* **C143** `C143_deduced_finding` (Pipelines/Zip.lean): So a range of numbers from a negative one on has the right length but begins with a number above `2^63`.
* **C143** `C143_distance_violated` (Pipelines/Zip.lean): `std::size_t` has ranges with more numbers than `ptrdiff_t` can count, and Enumerate (`iota_view<std::size_t>( 0, max )`) makes one: its distance is -1. A signed type may overflow.
* **C143** `C143_iota_violated` (Pipelines/Zip.lean): If `first` is behind `last`, which a loop with a computed bound may produce, the loop is not empty: it runs into the overflow of the type, undefined behaviour for `int` and larger signed types.
* **C143** `C143_iota_wraps_finding` (Pipelines/Zip.lean): In an unsigned type it walks through all the numbers above `first` and then those below `last`.
* **C144** `C144_distance_violated` (Pipelines/Zip.lean): Over ranges with random access the distance from begin to end, by which `std::vector` and others size themselves, has nothing to do with the range: for the index type `std::size_t` it is -1, which as a size is more than any container holds.
* **C144** `C144_enumerate_violated` (Pipelines/Zip.lean): Otherwise elements are lost without a word: the loop ends before the index would be the largest value.
* **C145** `C145_projection_violated` (Pipelines/Map.lean): With a projection `Map` of a single value applies it and `Map` of a range does not: it is ignored.
* **C146** `C146_copy_violated` (Pipelines/Map.lean): A copy of a view over a temporary looks at the elements of the original, not at its own: after the original is destroyed a loop over the copy reads freed memory.
* **C151** `C151_every_zero_finding` (Pipelines/Search.lean): `Every( 0 )` is `Every( 1 )`: it sees all the elements.
* **C152** `C152_sum_violated` (Pipelines/Search.lean): So the sum of a few bytes is wrong, and that of a few `int`s undefined, though a larger type would hold it.
* **C154** `C154_equal_violated` (Pipelines/Search.lean): Equal iterators with different predecessors: the end of `Take( n )` and the iterator a loop arrives at.
* **C154** `C154_reverse_finding` (Pipelines/Search.lean): `Reverse` of `Take( n )` sees the last elements of the whole range, as many as `Take( n )` has, not those `Take( n )` has.
* **C154** `C154_reverse_violated` (Pipelines/Search.lean): And is not otherwise.
* **C155** `C155_difference_violated` (Pipelines/Search.lean): The difference of ranges has the wrong sign: the range after `n` increments is `-n` after the one before.
* **C156** `C156_throw_violated` (Own/UnionPair.lean): If the assignment to the held object throws, the object is forgotten: it is still alive when the destructor is done.
* **C156** `C156_union_violated` (Own/UnionPair.lean): For other types, such as `std::string`, every constructor from a value and every change of the held type assigns to an object that does not exist.
* **C157** `C157_validated_violated` (Own/UnionPair.lean): A variable made with the default constructor is not validated, and neither is what `std::move( v ).get( )` leaves behind: both can hold values the validator rejects.
* **C159** `C159_at_violated` (Own/UniqueArray.lean): `at` is the wrong way round: it throws for every element there is, and reads past the array for every other position.
* **C159** `C159_empty_violated` (Own/UniqueArray.lean): An array of no elements is not empty.
* **C160** `C160_const_violated` (Own/Sbo.lean): Reading a storage that is `const` ends the program for every value that lies inside, if assertions are on.
* **C160** `C160_throw_violated` (Own/Sbo.lean): If the constructor of a value that does not fit throws, its storage is lost: the next `allocate` forgets where it is.
* **C161** `C161_distance_violated` (Pipelines/Join.lean): The distance to the end does not change when the iterator moves.
* **C161** `C161_empty_violated` (Pipelines/Join.lean): With an empty string anywhere among them, the loop reads outside of it.
* **C162** `C162_concat_violated` (Pipelines/Join.lean): The order is up to the compiler: one that evaluates the right operand of `+` first puts the strings in the reverse order.
* **C164** `C164_swap_ranges_violated` (Algorithm/SwapRanges.lean): It should exchange the elements of the ranges, the pointers, and leave alone what they point to. Two pointers of the first range to the same object show that this is not the same up to names: the object gets the value of the last partner.
* **C167** `C167_index_violated` (Containers/Views.lean): The assertion of `operator[]` of a view of elements that are not `const` lets the position behind the last one pass.
* **C167** `C167_subspan_violated` (Containers/Views.lean): Any other part is not: the end is counted from the start of the view. For every `offset` in the view but the first, what comes out has `offset` elements less than it should have, or its end before its start.
* **C168** `C168_span_violated` (Containers/Span.lean): `remove_prefix` and `remove_suffix` do not look at the size: one element too much and the span has 2^64 - 1 elements, of which `at` gives those that are not in it. `pop_front( n )` for `n` above the size gives all elements but then does the same.
* **C169** `C169_crend_violated` (Containers/Span.lean): A loop from `crbegin` to `crend` of a span of `const` elements sees no elements at all.
* **C170** `C170_rotate_violated` (Algorithm/Rotate.lean): With `middle == last`, for which there is nothing to do, it runs out of the array, whatever is behind the range.
* **C171** `C171_nth_element_violated` (Algorithm/Rotate.lean): The element at `nth` is not the one that belongs there: the loop stops before it looks for it, and what it puts in the places before `nth` are not the smallest elements, as it compares with the element that it has just swapped away.
* **C173** `C173_neg_violated` (Bits/UIntTypes.lean): For the one value of `UInt32` and of `UInt64` that is left, the negative overflows `int32_t` and `int64_t`; it should be the value itself.
* **C174** `C174_div_violated` (Bits/UIntTypes.lean): The division of a `uint8_t` by a `UInt64` is done in `uint32_t`: by 2^32 it divides by zero, and by 2^32 + 1 it does not divide at all.
* **C175** `C175_rotate_violated` (Bits/UIntTypes.lean): Rotating a `UInt64` or `UInt32` by nothing, or all around, is undefined, although the template accepts both counts; and so is any count above the number of bits.
* **C176** `C176_get_bit_end_violated` (Bits/UIntTypes.lean): The check of `get_bit` lets the position after the last bit pass: reading it is undefined for 32 and 64 bits and gives zero for less.
* **C176** `C176_set_bit_violated` (Bits/UIntTypes.lean): `set_bit<N>` of a `UInt64` clears the upper half of the number: the mask has 32 bits. For `N` of 32 and more it is undefined.
* **C178** `C178_literals_violated` (Bits/UIntTypes.lean): `255_u8` and `65535_u16` fit but end a build with assertions.
* **C179** `C179_iter_view_violated` (Containers/IterView.lean): With assertions, removing all elements without clipping ends the program, and so does `pop_front_until( needle, discard )` if the needle is not there.
* **C181** `C181_subspan_violated` (Containers/IterView.lean): For an offset, the end is counted from the start of the view: the part has `offset` elements too few, and if there are not as many, random access iterators make a view of nearly 2^64 elements, while the distance of other iterators is undefined.
* **C183** `C183_bitcount_violated` (Util/Utility.lean): C183 does not hold: `bitcount` adds the even part of the value in every turn instead of its last bit. It returns twice the difference of the value and the number of ones (in 64 bits), so that 0 and 3 are the only values for which it is right, and never returns for negative values.
* **C185** `C185_wide_violated` (Util/Utility.lean): C185 does not hold for wider characters: `AsciiUpper` of a string of 16 bit characters turns U+0161 into the letter A.
* **C187** `C187_object_violated` (Util/Utility.lean): C187 does not hold for output to memory: `hex` of an object increments the output iterator once more after every byte; the digits of the bytes are three places apart, and the result is past the end of a buffer that has exactly two places for each byte.
* **C187** `C187_objects_violated` (Util/Utility.lean): C187 does not hold for ranges of objects: `hex( first, last, out )` does not look at the objects, it stores the digits of what the output has at this place: any two ranges with the same number of objects give the same text, and one object of any size two digits.
* **C189** `C189_equal_to_last_violated` (Util/Utility.lean): C189 does not hold for all arguments: only a pointer to the argument is kept. A variable that is changed between the calls is compared with itself, and an argument that does not live any more is read.
* **C191** `C191_in_range_violated` (Util/Utility.lean): C191 does not hold for all values: `in_range( 5u, -1, 10 )` is false, the lower bound becomes 4294967295. `in_range( -1, -5, 10u )` is false too, the value becomes 4294967295.
* **C192** `C192_collision_violated` (Containers/FixedLookup.lean): C192 does not hold for two keys whose stored hashes are equal: the keys themselves are not stored, so that after one of them was inserted the other one is there too, with its value, and inserting it changes the value of the first. Such keys exist in every infinite type, whatever its hash function.
* **C196** `C196_overflow_violated` (Sort/StackQuick.lean): C196 does not hold for large containers: the stack of 256 places overflows if the pivots are badly placed. With a partition that keeps the order, every "hill" of more than 512 numbers, with the two largest ones at the ends and so on inwards, writes out of bounds.
* **C196** `C196_unsorted_violated` (Sort/StackQuick.lean): C196 does not hold: a part of at most one element ends the whole function, and the parts right of the pivots are never sorted. With every `std::partition` that leaves elements alone that are already partitioned, as the usual ones do, the elements 1, 2, 3, 5, 4 stay as they are.
* **C198** `C198_copy_violated` (Own/HeapArray.lean): C198 fails: `find_first_of` writes past the block of every array that was copied or made from a pointer and a size, even if the value is there.
* **C199** `C199_bool_violated` (Own/HeapArray.lean): C199 fails: an array with storage converts to `false`, one without to `true`.
* **C199** `C199_leak_violated` (Own/HeapArray.lean): C199 fails: move assignment does not free the block the target had, and no array refers to it any more.
* **C199** `C199_move_violated` (Own/HeapArray.lean): C199 fails: the end of a move-constructed array is null, so a loop over it leaves its block and it is not `empty` even if it has no elements; the array moved from has no elements but is not `empty`.
* **C200** `C200_erase_result_violated` (Containers/BoundedHashSet.lean): C200 does not hold for what `erase` returns: for a key that is not there it returns a place, as for one that was erased, unless the set is full.
* **C200** `C200_erase_violated` (Containers/BoundedHashSet.lean): C200 does not hold for `erase` in the middle of a chain: whatever the hash, if two different keys have the same hash, then erasing the first one makes the second one, which was not erased, disappear from a set of two or more places.
* **C201** `C201_find_violated` (Containers/BoundedHashSet.lean): C201 does not hold for `find` of a key that is not there: unless the set is full the iterator is not `end( )`, but the position of an item without value.
* **C202** `C202_loop_violated` (Containers/BoundedHashSet.lean): C202 does not hold for loops: a loop over a set that is not empty, from `begin( )` or any other entry to `end( )`, reads an item past the array, for both kinds of iterators.
* **C204** `C204_remove_edge_violated` (Graph/Bounded.lean): C204 does not hold for the removal of edges if the capacity is a multiple of 59, here 59 itself: removing the edge from node 0 to node 0 also makes the edge to node 1 disappear on one of its two sides.
* **C204** `C204_remove_node_violated` (Graph/Bounded.lean): C204 does not hold for `remove_node`: in whatever graph, removing a node that has an edge, in or out, is undefined behaviour, for every hash function and every capacity.
* **C205** `C205_equal_violated` (Graph/Bounded.lean): C205 does not hold for `==`: any two different nodes of one graph are both `==` and `!=`, and so are nodes of different graphs with one id.
* **C209** `C209_cartesian_violated` (Algorithm/Extra.lean): C209 does not hold for `cartesian_product` and `cartesian_product_map`: they do not go over all pairs, but over the ranges in parallel; for ranges of the same length with more than one element most pairs are missing.
* **C210** `C210_convert_copy_violated` (Algorithm/Extra.lean): C210 does not hold: `convert_copy` should copy the converted elements and return the end of the output, but every call that does not fail before is undefined behaviour.
* **C211** `C211_extract_all_violated` (Algorithm/Extra.lean): C211 does not hold for targets with unique elements: an element that the target has already is in neither container afterwards, so one of the two equal elements is destroyed.
* **C211** `C211_extract_matching_violated` (Algorithm/Extra.lean): C211 does not hold for `extract_matching`: if an element matches, the behaviour is undefined. (If none does, nothing happens.)
* **C211** `C211_extract_to_violated` (Algorithm/Extra.lean): C211 does not hold for `extract_to` either, if the target has unique elements: the elements equal to the key are taken out and, if the target has one already, do not arrive.
* **C212** `C212_in_range_violated` (Algorithm/Extra.lean): C212 does not hold for arguments that moving empties (strings, whose smallest value is what is left after a move): bounds that are in the right order are rejected if only the upper one is moved, and bounds in the wrong order are accepted if the lower one is.
* **C212** `C212_reference_violated` (Algorithm/Extra.lean): C212 does not hold for predicates made from variables ("the value constructed with"): the predicate does not keep the value, so an assignment to the variable changes the predicate, and after the end of the variable calling it is undefined behaviour.
* **C213** `C213_erase_own_violated` (Vector/Erase.lean): C213 does not hold if the value is an element of the vector: after the first element has been overwritten the reference is to another value. Erasing the first element of `a, b, a` by reference leaves `b, a`, and returns 1.
* **C215** `C215_copy_assign_violated` (Vector/Alloc.lean): C215 does not hold for copy assignment to a vector without a block, if the allocator is propagated and different: a null pointer is deallocated.
* **C216** `C216_find_violated` (StringView/View1.lean): C216 does not hold for a position beyond the end: the code leaves the text.
* **C216** `C216_last_char_violated` (StringView/View1.lean): C216 does not hold for `find_last_of( c, pos )`: the first character is never looked at, a position makes it look behind that position instead of before it, and an empty text is undefined behaviour.
* **C216** `C216_last_not_of_violated` (StringView/View1.lean): C216 does not hold for `find_last_not_of`. The first text is that of a unit test, "abcabfghijklm" and "abc", which expects 3; the last character not in the set is at 12.
* **C216** `C216_search_violated` (StringView/View1.lean): C216 does not hold for `search` and `search_last`: the text occurs in itself, and of two occurrences the last is not found; without an occurrence `search_last` returns the position it started from.
* **C217** `C217_char_empty_finding` (StringView/View1Ops.lean): C217: an empty view has neither.
* **C217** `C217_resize_violated` (StringView/View1Ops.lean): C217: to its own size a view cannot be resized, and an empty view not at all.
* **C218** `C218_literal_violated` (StringView/View1Ops.lean): C218 does not hold for literals: the terminator is taken for a character of the text, so that the last piece ends with it, and of an empty literal there is one piece.
* **C219** `C219_construct_violated` (Containers/BoundedString.lean): C219: the constructor from another bounded string and a count takes characters from behind the text, if the count is larger than its size; and `make_bounded_string` of a literal counts the terminator.
* **C219** `C219_erase_all_finding` (Containers/BoundedString.lean): C219: `erase( )`, which is to erase everything, ends the program.
* **C219** `C219_erase_violated` (Containers/BoundedString.lean): C219 does not hold for `erase`: the contents are right, but the erased character takes the place of the terminator.
* **C219** `C219_has_room_violated` (Containers/BoundedString.lean): C219: `has_room` says the opposite, except that it is right when the text would exactly be full.
* **C219** `C219_remove_npos_finding` (Containers/BoundedString.lean): C219: removing the largest number of characters from a text that is not full appends one.
* **C219** `C219_truncate_violated` (Containers/BoundedString.lean): C219 does not hold for texts longer than the capacity: the constructor keeps one character more than the capacity and no terminator; `full` is not noticed, so that `push_back` writes outside the array, and a reader of `c_str` leaves it.
* **C220** `C220_find_first_of_violated` (Containers/BoundedString.lean): C220: a character of a larger set is not found.
* **C220** `C220_substr_violated` (Containers/BoundedString.lean): C220: the part from the end of the text on is empty, but `substr` and `copy` throw; so does each part of an empty text.
* **C221** `C221_clear_finding` (Containers/OldHashTable.lean): C221: after `clear`, or after `shrink_to_fit` of a table in the state of `C221_lookup_violated`, there are no cells, and the next insertion or lookup divides by zero.
* **C221** `C221_erase_finding` (Containers/OldHashTable.lean): C221: erasing a key from a table that has none reports that one was erased, the count of the keys becomes the greatest number, and one cell is neither empty nor in use afterwards: it has the default value, and the other cells are unchanged.
* **C221** `C221_lookup_violated` (Containers/OldHashTable.lean): C221 does not hold: after any insertions `occupied` is 0, `at` throws for no key at all, and every lookup gives the value inserted last or a default value, so that the others are lost; iteration finds nothing; `erase` of any key reports success and `occupied` becomes the largest number.
* **C222** `C222_empty_violated` (StringView/SplitRange.lean): C222 does not hold for the empty delimiter: the loop over the pieces of any text that is not empty does not end.
* **C222** `C222_postfix_violated` (StringView/SplitRange.lean): C222: the postfix `++` leaves the iterator where it is and returns the next one; it should be the other way round.
* **C223** `C223_special_violated` (Parse/Quoted.lean): C223 does not hold for the empty text, nor for a backslash that is itself escaped before the closing quote, where the text runs on to the next quote.
* **C223** `C223_unclosed_violated` (Parse/Quoted.lean): C223 does not hold without the closing quote: the character behind the text is read; at the end of the memory that is undefined, and a quote that does not belong to the text is accepted.
* **C224** `C224_insert_violated` (Vector/OldVector.lean): **C224 (violated).** For a vector of different elements, with any number of values and any position inside it, the insertion gives the sequence with the values inserted exactly if nothing is inserted or the position is between the number of values and twice that number: `v.insert( v.begin( ), x )` loses the first element of every vector.
* **C225** `C225_push_violated` (Vector/OldVector.lean): **C225 (violated).** A copy takes over the capacity of its source, but only allocates memory for the elements. If the memory for the elements is less than the capacity says, `push_back` into the copy writes outside the memory of the copy, as soon as that memory is full.
* **C225** `C225_unequal_reads_violated` (Vector/OldVector.lean): **C225 (violated).** `a != b` reads outside the elements of `b`, if `a` is longer and differs from `b` everywhere.
* **C225** `C225_unequal_violated` (Vector/OldVector.lean): **C225 (violated).** `!=` is false for two vectors of the same size, whatever they hold, and it is false for two vectors of different sizes that begin with the same element. In both cases `==` can be false too.
* **C226** `C226_assign_violated` (Own/CheckedExpected.lean): **C226 (violated).** Any exception can be assigned, also one of a type that is not expected.
* **C226** `C226_null_finding` (Own/CheckedExpected.lean): **C226 (finding).** A null pointer cannot be given to the constructor if any type is expected.
* **C227** `C227_assign_violated` (Own/CheckedExpected.lean): **C227 (violated).** If an object that holds an exception is assigned the result of a call that returned, it keeps the exception: `get` throws, and the object has a value and an exception.
* **C227** `C227_copy_violated` (Own/CheckedExpected.lean): **C227 (violated).** A copy of an object that is not `const` has a value and no exception, whatever its source holds.
* **C227** `C227_false_finding` (Own/CheckedExpected.lean): **C227 (finding).** Assigning `false` makes the object have a value.
* **C228** `C228_digits_violated` (Parse/Format.lean): **C228 (violated).** What is in a field is not checked: the empty field is field 0, and a field with one character from `:` on is the field of a number from 10 on.
* **C228** `C228_hundred_violated` (Parse/Format.lean): **C228 (violated).** A field with three digits is refused, although there can be as many arguments.
* **C228** `C228_open_violated` (Parse/Format.lean): **C228 (violated).** A `{` at the end of a text is dropped, and a field without `}` is taken as one that ends with the text.
* **C229** `C229_backslashes_violated` (Parse/Format.lean): **C229 (violated).** Backslashes need one token each, and there is only room for half as many.
* **C229** `C229_empty_violated` (Parse/Format.lean): **C229 (violated).** The field without digits is field 0, but there is not enough room for the tokens of texts with such fields.
* **C229** `C229_escape_violated` (Parse/Format.lean): **C229 (violated).** A backslash before a `{` is kept, and the field is a field all the same: there is no way to write a `{`.
* **C229** `C229_static_violated` (Parse/Format.lean): **C229 (violated).** That version has no room for the last token of some texts: a single character, or a field between two characters.
* **C230** `C230_clear_violated` (Containers/FixedArray.lean): C230, violated: after any history, an array with memory that is emptied by `clear` cannot be destroyed, emptied, released or assigned to any more: it frees its memory a second time.
* **C230** `C230_pointer_violated` (Containers/FixedArray.lean): C230, violated: an array made from the pointer and the size of another is not a copy. Destroying both frees the memory a second time, whatever the history.
* **C231** `C231_decrement_finding` (Containers/FixedArray.lean): C231, finding: `--( --it )` moves an iterator by one place only.
* **C231** `C231_empty_violated` (Containers/FixedArray.lean): C231, violated: a loop over an array without memory, like one that was moved from, ends the program instead of meeting nothing.
* **C232** `C232_excess_violated` (Containers/CArray.lean): C232, violated: more values than places compile and are written behind the array.
* **C233** `C233_rbegin_violated` (Containers/CArray.lean): C233, violated: `*rbegin( )` is the element before the last one, and nothing at all for one element.
* **C233** `C233_reverse_reads_violated` (Containers/CArray.lean): C233, also if `rend( )` is taken as some base `e` that a loop from `rbegin( )` does not come to: the loop reads the element before the first one.
* **C233** `C233_reverse_violated` (Containers/CArray.lean): C233, violated: a loop over an array from `rbegin( )` to `rend( )` is never defined, as `rend` goes before the array.
* **C234** `C234_digit_violated` (Parse/Addons.lean): C234, violated: of any number that begins with a digit `find_number` finds the first digit only, and says that it found nothing.
* **C234** `C234_end_violated` (Parse/Addons.lean): C234, violated: a minus with no digit (and no point) behind it makes the result go behind the end of the text.
* **C234** `C234_minus_violated` (Parse/Addons.lean): C234, violated: a minus and whatever is between it and the next digit counts as a number, and further digits do not.
* **C235** `C235_empty_violated` (Parse/Addons.lean): C235, violated: an empty text and a minus alone are read behind their end.
* **C235** `C235_letter_violated` (Parse/Addons.lean): C235, violated: a character above the digits is taken as a digit with a larger value.
* **C235** `C235_long_violated` (Parse/Addons.lean): C235, violated: with more than `digits10` digits `parse_int` throws, also if the number is one of the type.
* **C235** `C235_overflow_violated` (Parse/Addons.lean): C235, violated: characters above the digits can make the arithmetic of an `int` overflow.
* **C235** `C235_sign_violated` (Parse/Addons.lean): **C235 (violated: signs).** A character below `0`, such as a plus sign or a blank, is read as a negative digit by a type of 32 bits and as a digit of more than four thousand million by one of 64 bits.
* **C236** `C236_backslash_violated` (Parse/Addons.lean): C236, violated: in a text that ends with an escaped backslash the closing quote is not seen: without another quote the text is refused.
* **C236** `C236_blank_violated` (Parse/Addons.lean): C236, violated: blanks before the quote are skipped, but the quote is looked for before them: every such text is refused.
* **C236** `C236_empty_violated` (Parse/Addons.lean): C236, violated: an empty range is read.
* **C236** `C236_open_violated` (Parse/Addons.lean): C236, violated: a text that is never closed is accepted if its last character is an escaped quote.
* **C238** `C238_none_violated` (Strings/Split.lean): C238 is violated for no parts: the empty text has one.
* **C239** `C239_negative_violated` (Strings/Split.lean): C239 is violated by every text with a character of the upper half, as all letters with accents are in UTF-8: its `char` is negative, which `isspace` must not be called with. The one value that is allowed is that of `EOF`.
* **C240** `C240_left_violated` (Strings/Trim.lean): C240 is violated by `trim_left` for every text of delimiters only: it throws, where `trim_right` and `trim` give the empty text.
* **C240** `C240_zero_finding` (Strings/Trim.lean): C240, finding: the `\0` of the standard delimiters is none of them, so that it stays at the end of a text.
* **C241** `C241_empty_violated` (Strings/Trim.lean): C241 is violated by the empty ending, which every text has.
* **C241** `C241_text_violated` (Strings/Trim.lean): C241 is violated by texts of several characters: the last one of the text can be any of them, in any place.
* **C243** `C243_empty_violated` (Strings/Trim.lean): C243 is violated for an empty text to search and nothing to replace it with: the loop does not end.
* **C243** `C243_insert_violated` (Strings/Trim.lean): C243 is violated for an empty text to search and something to replace it with: the text grows until there is no more room.
* **C244** `C244_escape_violated` (Strings/Fmt.lean): C244 is violated by fields behind an opening brace, which should protect them: they are left, but the brace that protects them is left too, so that no format says `{0}`.
* **C244** `C244_index_violated` (Strings/Fmt.lean): C244 is violated by a field without an argument: it is read behind the arguments, without a check.
* **C246** `C246_visit_result_violated` (Util/Dispatch.lean): `visit<Result>` of a variant without value is undefined, whatever the visitor and the number of alternatives: the check before it compares an index of an unsigned type with zero.
* **C247** `C247_can_extract_finding` (Util/Dispatch.lean): `can_extract` denies what `variant_cast` gives: a type that converts without being the type itself.
* **C247** `C247_variant_cast_violated` (Util/Dispatch.lean): A variant without value is undefined for both, where `std::get` throws.
* **C248** `C248_any_if_violated` (Util/Dispatch.lean): `any_if` denies as soon as one value is not true, whatever the others are, and is true of no values.
* **C249** `C249_call_operator_finding` (Util/Dispatch.lean): `operator( )<true>` ends the program for a function without arguments, which `call<true>` calls.
* **C249** `C249_function_table_violated` (Util/Dispatch.lean): A table of functions of one type, with an index that no function has, is undefined. The program of the unit test is such a table with 58 functions for the characters up to `9`: any later character in its argument does that.
* **C250** `C250_contract_violated` (Util/Dispatch.lean): With a handler that returns, which its type allows, a contract has a value that does not fulfil it, and any use is undefined.
* **C250** `C250_extract_violated` (Util/Dispatch.lean): After `extract` a value that moving empties, such as a text, does not fulfil its contract: the next use is undefined.
* **C251** `C251_sliced_violated` (Own/OptionalPoly.lean): An optional that is made from an object of a derived type has it, but a copy of that optional, an optional that it is assigned to, and one that such an object is assigned to have an object of the base type only.
* **C252** `C252_empty_violated` (Own/OptionalPoly.lean): An empty optional is less than itself, and not greater or equal to itself, although it equals itself.
* **C253** `C253_lone_quote_violated` (Parse/Args.lean): A value that is one quote, which is no quoted text, is lost.
* **C253** `C253_unnamed_violated` (Parse/Args.lean): Different arguments that become the same: `--=x` and `x`, and `--` and an empty text.
* **C254** `C254_named_violated` (Parse/Args.lean): Named arguments with an empty name count as positional: `--=x` is no named argument; and the empty name finds positional ones.
* **C256** `C256_lengths_violated` (Iter/Zip.lean): A loop over containers of different lengths is always undefined: the ends are only met if all are met at once.
* **C256** `C256_rvalue_violated` (Iter/Zip.lean): A loop over elements of a container that was given as an rvalue is undefined: the iterators are of a parameter.
* **C257** `C257_pow2_violated` (Bits/FloatPow.lean): `pow2` gives zero for the two lowest exponents of normal numbers, which `numeric_limits::min_exponent` is one above.
* **C258** `C258_ldexp_violated` (Bits/FloatPow.lean): Outside of that `ldexp` multiplies by zero, by infinity, by negative zero and by negative infinity, although the product of the power of two with a number can be a number; and the sum can overflow.
* **C259** `C259_tables_violated` (Bits/FloatPow.lean): For all other exponents the tables are read outside, although a `double` has 10^308 and the powers of two up to 2^1023.
* **C260** `C260_parts_violated` (Bits/FloatPow.lean): For larger numbers `significand` multiplies where it should divide: it gives 64 for 8, which has significand one and exponent three. `sign_bit` is true for numbers without sign.
* **C261** `C261_adj_ulp_violated` (Bits/FloatPow.lean): For negative numbers it counts the other way: one up from minus one is below it. One down from zero is not a number.
* **C262** `C262_sqrt_violated` (Bits/Sqrt.lean): For numbers below the normal ones the first guess is far away and the rounds do not come near: the square of the root of the least number is more than 2^30 times that number. The root of minus one is a number instead of NaN, and that of minus infinity infinity.
* **C263** `C263_signbit_violated` (Bits/Sqrt.lean): It is false for negative zero and for a NaN with the sign.
* **C264** `C264_rounding_violated` (Bits/Rounding.lean): For all other numbers they are wrong: `round` is not nearest for numbers below minus one half, if they are not half way between integers; `floor` is above negative numbers that are not integers; `ceil` is one too large for integers, and below minus one.
* **C265** `C265_by_violated` (Bits/Rounding.lean): `ceil_by` of a multiple gives the next one, and a step of zero is undefined.
* **C266** `C266_nearly_equal_violated` (Bits/Rounding.lean): Zero is not nearly equal to any other number, however small and for any `epsilon`: the exponent is used as if it were the least number.
* **C267** `C267_sin_violated` (Bits/Sine.lean): The recursion ends for every number, with the value above; it does not end for infinity and for NaN.
* **C270** `C270_assign_violated` (Memory/CxAtomic.lean): An assignment of atomics is not indivisible: one thread assigns the second to the first, another stores one and then five to the second and the first. In the end the first can be as the second was before, which no order of indivisible operations gives.
* **C271** `C271_defined_violated` (Memory/CxAtomic.lean): A signed counter of 32 bits wraps at run time and has no value at compile time.
* **C271** `C271_weak_finding` (Memory/CxAtomic.lean): At run time a weak compare and exchange may fail where it succeeds at compile time.
* **C272** `C272_copy_violated` (Algorithm/Container.lean): If the destination begins inside the source, the first elements are repeated instead.
* **C273** `C273_copy_if_violated` (Algorithm/Container.lean): If the destination begins inside the source, an element that was copied can be copied again.
* **C274** `C274_for_each_with_pos_violated` (Algorithm/Container.lean): An empty interval can be undefined too: the position `2^63` is negated as a signed number.
* **C275** `C275_view_violated` (Iter/RangeType.lean): `front` and `back` of an empty range and `operator[]` beyond the end give elements of the array that are not in the range, if there are any.
* **C276** `C276_shrink_violated` (Iter/RangeType.lean): `shrink( n )` leaves one element too many, and is undefined for the size of the array behind the begin.
* **C277** `C277_temporary_finding` (Util/FunctionRef.lean): A reference to a temporary object: the constructor takes it, and the call is undefined.
* **C278** `C278_get_violated` (Containers/MphBits.lean): C278: the bit just set, alone, reads as false, and its neighbours of the same bin read as true, in every set in which bits can be set at all.
* **C278** `C278_set_bit_violated` (Containers/MphBits.lean): C278: `set_bit` is defined for every bit of the set exactly if the number of bits is a multiple of 8 and not one of 64. Otherwise bits at the end have no bin, or the shift is too wide.
* **C279** `C279_literal_finding` (Bits/GenericHash.lean): C279, literals: the hash of a literal is that of its text and the terminating zero.
* **C279** `C279_pointer_violated` (Bits/GenericHash.lean): C279 does not hold for pointers: every value pointed to has the same hash.
* **C279** `C279_two_bytes_violated` (Bits/GenericHash.lean): C279 does not hold for hashes of two bytes: every range has the hash zero.
* **C280** `C280_empty_violated` (Own/MappedFile.lean): C280 does not hold for files without a value: assigning from one that was never opened, or was moved from, is undefined, and asking whether it is open ends the program.
* **C280** `C280_munmap_violated` (Own/MappedFile.lean): C280 does not hold for what is given to the system: exactly the programs in which an `mmap` fails unmap something that is not mapped, once for every failure.
* **C281** `C281_content_violated` (Own/MappedFile.lean): C281 does not hold for larger elements: the size is in bytes but used as a number of elements, so that the loop from `begin( )` to `end( )` leaves the file, whatever file was opened.
* **C282** `C282_handles_violated` (Own/MappedFileWin.lean): C282 does not hold: in every program the number of handles that are open is the number of files that were opened; no handle that matters is ever closed.
* **C282** `C282_wide_violated` (Own/MappedFileWin.lean): C282 does not hold for the `open` with a `wstring_view`: a second one loses the view of the first for ever, and on an object that was never opened, which is what the constructor calls it on, it ends the program.
* **C283** `C283_bool_violated` (Own/MappedFileWin.lean): C283 does not hold: after `open` the object says that it is open exactly if `open` failed, and it says that it is empty in any case.
* **C284** `C284_negative_violated` (Util/Benchmark.lean): C284 does not hold for negative times, which occur because an estimate is taken off the times: all of them are printed in femtoseconds.
* **C284** `C284_printed_violated` (Util/Benchmark.lean): C284 does not hold for what is printed: the unit is chosen before rounding, so that every time just below a unit is printed as a thousand of the unit below it, with every precision.
* **C285** `C285_average_violated` (Util/Benchmark.lean): C285 does not hold for the average: when all of the two or more runs take the same time and nothing else takes time, the average printed is below the smallest time printed, because the estimate for nothing is taken off twice.
* **C285** `C285_one_run_violated` (Util/Benchmark.lean): C285 does not hold for one run: the average has nothing to do with the time of the run, it is the time between the calls of the clock less the estimate for nothing.
* **C286** `C286_index_violated` (Parse/FormatRange.lean): C286 does not hold for fields with a number: parsing ends the program, for every specification.
* **C286** `C286_quote_violated` (Parse/FormatRange.lean): C286 does not hold for a quote in a specification, as the fill character: the closing brace of the field is not seen. Without another quote in the rest of the string the iterator returned is before the specification,
* **C286** `C286_two_fields_violated` (Parse/FormatRange.lean): and with the same fill character in a later field both fields and the text between them are taken for one.
* **C288** `C288_dropped_violated` (Util/Factory.lean): C288, finding: a value of a type that the parameter does not take is dropped by `set( index, value )` without an error, so that the parameter keeps what it had, or remains unset and the factory is undefined.
* **C288** `C288_moved_violated` (Util/Factory.lean): C288, finding: a factory asked as an rvalue is left with moved from values, from which it constructs another object when asked again.
* **C288** `C288_unset_violated` (Util/Factory.lean): C288, finding: a factory with a parameter and no value set is undefined when asked, though `process_args_t` has a case that would throw.
* **C289** `C289_in_range_violated` (Parse/Mixed.lean): C289 does not hold for mixed types: 5u is not found between -1 and 10, while -1 is between 0u and 4294967295u.
* **C289** `C289_in_violated` (Parse/Mixed.lean): C289 does not hold for `in( text )`: the predicate is true for the values that are not in the text.
* **C289** `C289_is_a_violated` (Parse/Mixed.lean): C289 does not hold for mixed types: the byte 255 of an `unsigned char` is taken for the `char` -1, the end of a file for the largest `unsigned`.
* **C289** `C289_space_violated` (Parse/Mixed.lean): C289 does not hold for all numbers: a 64 bit number is cut to 32 bits, and then seen as a space, an escape or a quote.
* **C290** `C290_empty_violated` (Parse/Mixed.lean): C290 does not hold for the empty pattern: it is found at the start of every text except the empty one.
* **C290** `C290_literal_violated` (Parse/Mixed.lean): C290 does not hold for string literals: the terminating zero of the literal has to be found as well, so nothing is found in a text without a zero, although the text of the literal stands in it.
* **C292** `C292_tuples_violated` (Util/TupleHelper.lean): C292 does not hold for results a type does not have: a sum of bytes wraps around, the product of two 16 bit numbers without sign is undefined, as the numbers are multiplied as `int`s, and so is the quotient of the lowest `int` and -1.
* **C292** `C292_values_violated` (Util/TupleHelper.lean): C292 does not hold for values without sign: a component -6 divided by 3u becomes 1431655763, and -6 as a value divided by a component 3u likewise.
* **C294** `C294_mixed_violated` (Bits/MinMaxN.lean): C294 does not hold for mixed types: the greatest of -1 and 1u is 4294967295, the least is 1.
* **C295** `C295_last_violated` (Util/DoN.lean): If the bound is no multiple of the step, the last value below the bound is never passed, whatever the order.
* **C295** `C295_order_violated` (Util/DoN.lean): A compiler that evaluates right operands first calls the function with the values in falling order.
* **C297** `C297_names_violated` (Bits/Positions.lean): Kibibytes are 1024 bytes and kilobytes 1000, the literals have it the other way round.
* **C297** `C297_wraps_violated` (Bits/Positions.lean): Larger values wrap without an error: 16384 PB are 0.
* **C298** `C298_int_result_finding` (Algorithm/ArrayCmp.lean): C298, for every comparison that returns an `int`: the result is the first that is not 1, and 1 if there is none. So a pair that compares as 0, which is equal, ends the comparison, and pairs that compare as 1 are passed over as if they were equal.
* **C298** `C298_int_violated` (Algorithm/ArrayCmp.lean): A comparison that returns an `int`, 0 for equal: equality is taken to be 1, and the first two elements alone decide.
* **C300** `C300_leak_violated` (Util/Files.lean): The file is never closed: after as many calls as the process may have files open, a readable file is not read any more.
* **C300** `C300_wide_violated` (Util/Files.lean): With characters of two bytes the string is twice as long as the file, its second half is zeros.
* **C301** `C301_assign_violated` (Util/Files.lean): Assignment from another owner does nothing: the target keeps its file and the source too.
* **C302** `C302_moved_violated` (Own/ContainerData.lean): **C302** (finding). The implicit move constructor leaves the size and the capacity behind: the object moved from holds nothing and reports what it held.
* **C302** `C302_spare_violated` (Own/ContainerData.lean): **C302** (finding). The deleter destroys as many elements as the buffer has room for, not as many as it holds: with elements that have a destructor and room to spare, destroying or resetting the object is undefined.
* **C303** `C303_copy_violated` (Own/ContainerData.lean): **C303** (finding). A storage of a type that can be copied can be copied too, but only its bytes are: the copy holds no object unless the type is trivially copyable, and reading or destroying it is undefined.
* **C303** `C303_lost_violated` (Own/ContainerData.lean): **C303** (finding). Making an object where one is alive, and giving up a storage, destroys nothing.
* **C304** `C304_prev_violated` (Iter/Cpp17.lean): **C304** (finding). With bidirectional iterators moving back by `n` goes only `n` - 1 elements back: `prev( it )` is `it`, `prev( it, n )` is one element further on than it should be, and going back by one from the beginning is not even undefined.
* **C304** `C304_smallest_finding` (Iter/Cpp17.lean): C304, found: moving by the smallest `ptrdiff_t` is undefined: `prev` of all iterators, and `next` of those that cannot go back.
* **C305** `C305_overflow_violated` (Iter/Cpp17.lean): **C305** (finding). With the end before the beginning the range is not empty: signed types at least as wide as `int` overflow, which is undefined.
* **C305** `C305_wraps_violated` (Iter/Cpp17.lean): **C305** (finding). With the end before the beginning, types without sign and narrow ones wrap: every value of the type outside the two ends is visited.
* **C306** `C306_endless_violated` (Iter/Cpp17.lean): **C306** (finding). The loop never moves on: for every sequence that is not empty no vector is ever returned, references to the first element are added until there is no memory left.
* **C307** `C307_copy_violated` (Iter/Wrapped.lean): **C307** (finding). A copy of a const pointer may write to what the const pointer may not.
* **C307** `C307_post_violated` (Iter/Wrapped.lean): **C307** (finding). `p++` and `p--` of a `prop_const_ptr` return a reference to a local variable: every use of the result is undefined, though it is not for a pointer.
* **C308** `C308_count_violated` (Vector/IotaOp.lean): **C308** (finding). With a type that cannot count the elements, fewer are written than the function says: of 256 and more bytes only the remainder modulo 256.
* **C308** `C308_end_violated` (Vector/IotaOp.lean): **C308** (finding). If the end is too large for a narrow type, the values wrap and writing does not stop at the last element, which is undefined.
* **C308** `C308_step_violated` (Vector/IotaOp.lean): **C308** (finding). With a step of 0 or against the direction of the comparison nothing is written, and the function says that there are `sz` elements.
* **C309** `C309_rest_violated` (Strings/FromString.lean): **C309** (finding). A text that is not a number but begins with one is taken for the number.
* **C310** `C310_copy_violated` (Util/FnViews.lean): **C310** (finding). A copy of a view that is not const is a view of the view: assigning to the one changes what the other calls.
* **C310** `C310_destroyed_violated` (Util/FnViews.lean): **C310** (finding). Such a copy is of no use after the view it was copied from.
* **C310** `C310_self_violated` (Util/FnViews.lean): **C310** (finding). Assigning the copy back to the view it was copied from makes a view of itself, whose calls never end.
* **C311** `C311_star_violated` (Util/FnViews.lean): **C311** (finding). `operator*` refers to a temporary whatever is stored: every use is undefined.
* **C312** `C312_copies_violated` (Util/Binding.lean): **C312** (finding). The two differ in what the function may change: through `bind_front` all variables it is given, through `bind_args_at` none, not even those passed by reference.
* **C313** `C313_value_violated` (Util/Binding.lean): **C313** (finding). A pack with an element type that is no reference points to a parameter of its constructor: using it is undefined.
* **C314** `C314_repeated_violated` (Util/Binding.lean): **C314** (finding). An option may be given twice if it is passed in two ways, as a variable and as a temporary: the first wins, and the order matters.
* **C315** `C315_apply_violated` (Util/Tuple2.lean): **C315** (finding). `apply` does not compile for a tuple that is not const and has a class, say a `std::string`, nor for a const rvalue with a value.
* **C315** `C315_one_violated` (Util/Tuple2.lean): **C315** (finding). One tuple: `tuple2_cat( t )` is declared to return a tuple without elements and compiles for no other tuple.
* **C315** `C315_rvalue_violated` (Util/Tuple2.lean): **C315** (finding). Two or more tuples do not compile as soon as one that has elements is an rvalue, or is not const and has an element that is a class: as with `tuple2_cat( tuple2{ 1 }, tuple2{ 2 } )`.
* **C316** `C316_moved_violated` (Util/Tuple2.lean): **C316** (finding). No element of an rvalue is passed as rvalue: `apply( f, forward_as_tuple( std::move( x ) ) )` copies `x` where `std::apply` moves, and does not compile for types that can only be moved.
* **C317** `C317_array_violated` (Pipelines/Compose.lean): **C317** (finding). A const array of characters loses its last one even if it does not end in zero, and one that is not const keeps its zero.
* **C317** `C317_nullary_violated` (Pipelines/Compose.lean): **C317** (finding). A stage that can also be called without arguments, as a lambda with a pack of parameters, is not used: what it returns without arguments is.
* **C318** `C318_index_violated` (Pipelines/Compose.lean): **C318** (finding). `ForEachIndexed` tells its function nothing about the index: what it logs for equal elements is the same at every index.
* **C318** `C318_sample_all_violated` (Pipelines/Compose.lean): **C318** (finding). Keeping all, `Sample( n, n )`, ends the program.
* **C319** `C319_container_violated` (Pipelines/Compose.lean): **C319** (finding). After a stage that makes an owning range, such as `To<std::vector>` and `Map` to tuples, the result of `Elements` refers to a vector that is gone: reading it is undefined whatever comes next.
* **C320** `C320_chain_violated` (Iter/Collections.lean): **C320** (finding). So a second clause never gives a result unless the first left no element.
* **C320** `C320_const_violated` (Iter/Collections.lean): **C320** (finding). The clauses of a const range with an element never give a result, the references to the elements are never complete.
* **C321** `C321_transform_violated` (Memory/Observer.lean): **C321** (finding). `transform` calls its function with null, so one that reads ends the program where `and_then` gives the default.
* **C322** `C322_disabled_violated` (Strings/IntText.lean): **C322** (finding). `to_os_string_int` compiles for no type: it asks for an integral type and the function it calls for one that is not.
* **C322** `C322_pow10_violated` (Strings/IntText.lean): **C322** (finding). From the twentieth power on `pow10` reads after its table, as with a type of 128 bits.
* **C323** `C323_projection_violated` (Pipelines/Kahan.lean): **C323** (finding). With a projection nothing compiles: it is the element, a number, that is called with the projection.
* **C324** `C324_difference_violated` (Pipelines/Reshape.lean): **C324** (finding). Two iterators that are moved by the same `n` differ by `n`, but the difference is that of the first iterators only: the end of a zip minus its begin is the length of the first range, and adding it to the begin is undefined as soon as another range is shorter.
* **C325** `C325_dangling_violated` (Pipelines/Reshape.lean): **C325** (finding). The view has iterators into the copies of the containers in the function object `ZipMore( ... )` returned, not into the containers it was given: once that object is gone, as at the end of `auto v = pipeline( r, ZipMore( a, b ) )`, the view cannot be used, although `a`, `b` and `r` are still there, whatever is in them.
* **C325** `C325_tuples_violated` (Pipelines/Reshape.lean): **C325** (finding). "If the Range passed is a zip_view or tuple<Ranges> it will merge them": a tuple of ranges is no range and a range of tuples is no tuple, so that `ZipMore` compiles for neither; the only ranges that get to the branch for tuples and compile are arrays of arrays, whose rows, not whose columns, are taken for ranges.
* **C326** `C326_containers_violated` (Pipelines/Reshape.lean): **C326** (finding). `Swizzle`, `Element` and `Elements` compile for zips of ranges and for views that compute tuples, but for no container of tuples, such as a vector of pairs, although the tests for tuples are true for it.
* **C327** `C327_minmax_finding` (Pipelines/Extrema.lean): **C327** (finding). The greatest element `MinMax` gives is not the one `Max` gives whenever two elements have the greatest projection.
* **C327** `C327_order_violated` (Pipelines/Extrema.lean): **C327** (finding). `Sort`, `Max`, `Min` and `MinMax` accept an order, but a call with one of another type than `std::less<>`, such as `Sort( std::greater<>{ } )`, does not compile: no pipeline can use them with another order.
* **C328** `C328_convertible_violated` (Pipelines/Extrema.lean): **C328** (finding). "Clamp requires a lo/hi values convertible to the range value type": bounds of another type than the elements never compile, as in `Clamp( 1, 5 )` of a vector of `long`.
* **C328** `C328_references_finding` (Pipelines/Extrema.lean): **C328** (finding). A stage made with variables for bounds has references to them: it clamps to what is in the variables when it is called, not to what was in them when it was made, so that after assigning `lo'` and `hi'` to them the stage is the one made with these, and it is undefined once they are gone.
* **C329** `C329_plus_violated` (Pipelines/Extrema.lean): **C329** (finding). `it + n` and `it - n` of the iterators of `Map`, `Element` and `Elements` do not compile: they are `const` and modify `*this`; and without `const` they would return the position of `it` and move `it` itself, whatever `n` is. So these iterators are no random access iterators, though their category says so.
* **C330** `C330_assign_violated` (Strings/CString.lean): **C330** (finding). Assigning by moving to a string that owns its array does not delete the array: after the destructors have run it is still there, with no object that owns it.
* **C330** `C330_move_violated` (Strings/CString.lean): **C330** (finding). Moving from a string that owns its array makes two that do: the destructors of both delete it, which is undefined for every text.
* **C331** `C331_null_violated` (Strings/CString.lean): **C331** (finding). Comparing a default constructed string, which `empty` and `is_null` are defined for, with anything is undefined, also with another such string; and making a string of characters without NUL is undefined, as no length can be given with them.
* **C332** `C332_order_violated` (Util/Values.lean): **C332** (finding). On a machine that has the least significant byte first the two do not fit: `value_from_chars` of the bytes of a number is the number with its bytes in reverse, so it is the number only if they are the same backwards.
* **C332** `C332_to_array_violated` (Util/Values.lean): **C332** (finding). `to_array_of` compiles for no type, whatever could be deduced.
* **C333** `C333_lvalue_violated` (Util/Values.lean): **C333** (finding). "Only matching signs and upcasting supported": for a variable the type is deduced to be a reference, which is not arithmetic, so that nothing is asserted: the cast compiles to every type and can change the value and its sign.
* **C334** `C334_crossed_violated` (Util/Values.lean): **C334** (finding). Nothing is checked: removing more elements from a range of a part of a sequence than it has makes its end come before its begin, without an error as long as the sequence goes on, so that a loop over it leaves the range and then the sequence.
* **C335** `C335_const_violated` (Util/Values.lean): **C335** (finding). `value_is` of a variable that is `const` does not compile: the class has two constructors with the same parameter then.
* **C336** `C336_collision_finding` (Random/Seeds.lean): **C336** (finding). Two do not: a character one higher and the next one 33 lower, as in "Ab" and "BA", give the same seed in every text and with every seed, so builds of files of such names at the same time have the same random numbers.
* **C336** `C336_zero_violated` (Random/Seeds.lean): **C336** (finding). If the hash of the first text is 0, the second one is hashed as if it were alone.
* **C337** `C337_cut_violated` (Random/Seeds.lean): **C337** (finding). The seed is cut to the type of the numbers wanted: seeds with the same lowest bits make the same generator, though the engine has a state of 31 bits; `RandomFloat` does not cut them.
* **C338** `C338_compiles_violated` (Bits/UIntOps.lean): With a literal of type `int` the choice of the width decides about compilation: `UInt8 - 1`, `UInt16 - 1` and `UInt16 * 2` compile, `UInt8 + 1`, `UInt16 + 1`, `UInt8 * 2`, `1 + UInt16` and `2 * UInt64` are ambiguous; so is `UInt16 + uint8_t`; and `UInt16 | UInt8` compiles, but there is no `UInt8 | UInt16`.
* **C338** `C338_values_violated` (Bits/UIntOps.lean): A `uint64_t` added to a `UInt32` is cut to 32 bits, a `uint8_t` times a `UInt64` is cut to 8 bits, and `uint8_t` times `UInt8` has 32 bits.
* **C339** `C339_compiles_violated` (Bits/UIntOps.lean): Which comparisons with a literal compile depends on the operator, on the width and on the side: `UInt32 < 5`, `UInt32 > 5` and `5 != UInt32` do, `UInt32 >= 5`, `UInt32 <= 5`, `UInt8 > 5`, `5 < UInt32` and `5 == UInt32` are ambiguous; and of enumerations of different widths only `UInt64 == UInt32` (16, 8) can be compared, not the other way around.
* **C339** `C339_values_violated` (Bits/UIntOps.lean): An operand that is wider than the enumeration is cut before it is compared: every value of type `UInt8` is equal to itself plus 256 and not less than it, and `-1` is equal to the greatest `UInt32`.
* **C340** `C340_violated` (Bits/UIntOps.lean): The count is cut to the width of the value before the shift: a `UInt8` shifted by 256 is unchanged; a `UInt32` shifted by 32 is undefined; and `UInt16 << UInt8` and `uint32_t >> UInt16` compile while `UInt16 >> UInt8` and `uint32_t << UInt16` do not, nor does any shift by a wider enumeration.
* **C341** `C341_violated` (Containers/OldHashIter.lean): A good first cell is never visited; `begin` of a table without cells, which `clear` leaves, is undefined; `at_end` is true everywhere but at the end, and `valid` reads the cell behind the last one exactly there; `--` of the end stops at the first cell even if it is not good.
* **C342** `C342_item_violated` (Containers/OldHashIter.lean): The copy constructor of a cell forgets that it was removed, unlike its copy assignment: in a table of cells made with it, a hash that was stored behind a removed cell is not found any more.
* **C343** `C343_literal_violated` (Containers/BoundedStringOps.lean): A literal with a terminator in its text is both equal and not equal to the string with this text, if it is on the left side; on the right side it is not equal.
* **C344** `C344_array_violated` (Containers/BoundedStringOps.lean): The assertion of `array + str` asks for the opposite: it compiles for arrays longer than the capacity only, and then it always throws.
* **C345** `C345_bits_violated` (Bits/FloatBits.lean): C345 does not hold for minus zero, whose sign is lost, and for values that are no number, of which only one is given.
* **C346** `C346_intxp_violated` (Bits/FloatBits.lean): C346 does not hold for a `double` of two to the power of 128 or more: the cast is undefined.
* **C347** `C347_own_element_violated` (Algorithm/RemoveRef.lean): C347 does not hold for the first element as the value, if the next one differs: it is overwritten by this, and from then on the elements equal to the next one are removed, while the ones that were to be removed stay.
* **C348** `C348_assign_violated` (Own/ExpectedVoid.lean): C348 does not hold for assignments: `e = false` is a success, and so is `e = f` for a function that throws whenever it is called, since it is not called.
* **C348** `C348_null_exception_violated` (Own/ExpectedVoid.lean): C348 does not hold after `set_exception( )` outside of a handler: there is an exception, and to get it or its message is undefined.
* **C348** `C348_tests_finding` (Own/ExpectedVoid.lean): C348, `operator bool` and the message as tests for an exception are wrong: the one is true for an exception, the other is empty for one that is not derived from `std::exception`.
* **C349** `C349_equality_violated` (Own/ValueCompare.lean): C349 does not hold for `==` as the equality of the values: two values of which neither is less count as equal, whatever their own `==` says; so a number is equal to one that is not a number.
* **C349** `C349_floating_violated` (Own/ValueCompare.lean): C349: with floating point numbers `==` is not even transitive, and pointers that count as equal have different hashes.
* **C349** `C349_null_violated` (Own/ValueCompare.lean): C349: the hash of a null pointer, which compares like any other, is undefined; so is every comparison with a `heap_value` that was moved from.
* **C350** `C350_before_first_finding` (Containers/HashSetBack.lean): C350, where the two kinds differ: from the first entry, if it is not at the first place, the constant iterator goes back to the first place, which has no entry, and the other reads before the table.
* **C351** `C351_position_violated` (Parse/Streams.lean): C351 does not hold for a stream with `str( )` of which something was read: the values are those of the whole text, and as nothing is read by the call, the next call gives them again.
* **C351** `C351_views_violated` (Parse/Streams.lean): C351 does not hold for views as the values: every character of every part is gone when the call returns.
* **C352** `C352_arrays_violated` (Util/Expecting.lean): C352 does not hold for arrays, for instance literals: equal texts at two places fail, whatever they are, and the content of one array does not matter.
* **C352** `C352_no_exceptions_violated` (Util/Expecting.lean): C352 does not hold in a program without exceptions: an expression that throws nothing passes, whatever was expected, and one that would throw ends the program, also with the exception expected.
* **C353** `C353_negative_violated` (Util/Expecting.lean): C353 does not hold for a run quicker than every run of nothing: its duration is negative.
* **C354** `C354_alignment_finding` (Memory/GetBuffer.lean): C354, an alignment greater than that of the type: if the bytes are no multiple of it, there is no buffer, however much is free.
* **C354** `C354_wrap_violated` (Memory/GetBuffer.lean): C354 does not hold where the product is too great: the block is always too small for the last object.
* **C355** `C355_rounded_up_violated` (Iter/RangeContains.lean): C355, the same below zero: all the numbers between `n - 1` and `n` count as `n`, also where that is zero.
* **C355** `C355_rounded_violated` (Iter/RangeContains.lean): C355 does not hold for numbers that are not whole: between 0 and `n + 1` all the numbers of the interval from `n` count as `n`, so that a range without `n` contains it; and it is undefined if a number too great for the type is met.
* **C356** `C356_view_violated` (StringView/SignedWidth.lean): C356 does not hold for a view and a negative width, with which `std::string` is written as it is: more than 2^62 characters of filling are written with every text of less than 2^62 characters.
* **C357** `C357_escape_violated` (Strings/BraceSplitter.lean): C357 does not hold for escapes: after any text, a backslash escapes nothing. Outside of a field the brace after it opens one; in a field a closing brace after it ends the field, and an opening one is reported.
* **C357** `C357_text_violated` (Strings/BraceSplitter.lean): C357 does not hold for any text with a character other than braces and backslashes: at the first one it is undefined, in a field or not.
* **C358** `C358_loop_violated` (Containers/CircularWalk.lean): C358 does not hold for any container with elements, from whichever of them: the loop never ends.
* **C358** `C358_order_finding` (Containers/CircularWalk.lean): C358, the order: it is that of the places in the container, so the increment of the last place is less than it, and no other; no iterator is less than itself.
* **C359** `C359_deallocate_violated` (Vector/PageAlloc.lean): C359 does not hold for greater objects: all but the pages for as many bytes as there were objects are lost for ever.
* **C359** `C359_failure_violated` (Vector/PageAlloc.lean): C359 does not hold where there is not enough memory: nothing is reported, and no byte of the objects can be used.
* **C359** `C359_reallocate_violated` (Vector/PageAlloc.lean): C359 does not hold for `reallocate` of a block that is there: it never gives memory, whatever the sizes and however much there is, and reports nothing.
* **C359** `C359_wrap_violated` (Vector/PageAlloc.lean): C359 does not hold for the greatest numbers: the size asked for is none, and `malloc` gives a block without room for anything.
* **C361** `C361_has_room_violated` (Containers/BoundedVectorZero.lean): C361 does not hold for `has_room`: it denies room for nothing, and the general vector with a capacity of 0 affirms room for any number of elements.
* **C361** `C361_range_violated` (Containers/BoundedVectorZero.lean): C361 does not hold for the constructor from two iterators: it ends the program for a range without elements, which the general vector takes with every capacity.
* **C362** `C362_div_violated` (Bits/UIntAssign.lean): C362 does not hold for division by 2^w, which is 0 after the conversion, and undefined, but for `UInt8`, whose parameter is a `std::uint64_t`.
* **C362** `C362_left_violated` (Bits/UIntAssign.lean): C362 does not hold for an integer on the left: a `std::uint8_t` can be divided by a `UInt64` but not by a `UInt8`, a `std::uint64_t` by a `UInt32`, which cannot be added to it, and a `UInt16` can be added to a `std::uint32_t` that it cannot divide; there is no bitwise one.
* **C362** `C362_shift_violated` (Bits/UIntAssign.lean): C362 does not hold for shifts by 2^w: the count is 0 after the conversion, and the value stays; by 32 places `UInt8`, `UInt16` and `UInt32` are undefined.
* **C363** `C363_flag_violated` (StringView/CStr.lean): C363 does not hold for views whose flag is wrong, as `substr_unsafe( 0, 2 )` of the first two of `1, 2, 3, 0` makes them: the text has the character past the end too, and without any zero in the memory the read goes past its end, even in the check of debug builds.
* **C363** `C363_zero_violated` (StringView/CStr.lean): C363 does not hold for views with zeros inside: debug builds end the program, and in others the text ends at the first zero, before `size( )` characters, while `string( )` has all of them.
* **C365** `C365_bounds_violated` (Own/TrackedAlloc.lean): C365 does not hold for the last place: an object can be constructed one past the end of the block, for blocks without objects at its start; and for a wrong number of objects given back.
* **C365** `C365_copy_violated` (Own/TrackedAlloc.lean): C365 does not hold for copies: with a copy made before, a block can be given back twice, and used after it was given back, and nothing is noticed.
* **C365** `C365_traits_violated` (Own/TrackedAlloc.lean): C365 does not hold for containers, which call `std::allocator_traits`: its parameter is a copy, and only this copy is marked, so that even the same pointer can be given back twice or used afterwards.
* **C369** `C369_padding_violated` (Util/VisitAs.lean): **C369** (finding). For a type with padding even a visitor that changes nothing is undefined for every number: the bytes that are padding have no value when they are put back.
* **C370** `C370_foreign_violated` (Vector/SplitMove.lean): **C370 (violated: a block goes to another allocator).** `operator=` takes the block of the other buffer also when the allocator stays and is not equal: the destructor hands a block to an allocator it is not from.
* **C370** `C370_leak_violated` (Vector/SplitMove.lean): **C370 (violated: a block without cells is lost).** A buffer made from one without elements with an allocator of its own holds a block of no cells, which `operator=` does not release.
* **C371** `C371_lowest_violated` (Bits/CopySign.lean): **C371 (violated: the lowest number).** It keeps its sign in types narrower than `int` whatever the second number is, and in others the call is undefined for a second number that is not negative.
* **C371** `C371_unsigned_violated` (Bits/CopySign.lean): **C371 (violated: unsigned types).** A negative second number gives the complement of the number, another magnitude unless it is half of the range.
* **C372** `C372_array_violated` (StringView/View1Concat.lean): **C372 (violated: arrays).** All characters of an array but the last are taken, whatever they are: those behind the text in a buffer that is larger than it, and not the last one of an array without a zero.
* **C373** `C373_removed_finding` (Graph/Handles.lean): C373: `empty` and the conversion to `bool` are opposites and do not change while a graph does: a handle of a removed node is still not empty, although reading it ends the program.
