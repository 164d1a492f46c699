# Formal model of cest (constexpr containers) — design

Source modelled: `/repo/include/cest` (header-only library). Nothing is compiled or run; the headers
are transcribed by hand into Lean 4 definitions, function by function, with file:line citations at every
definition. Properties are listed in `properties.jsonl` (C01 …), their status in `MANIFEST.json`.

## 1. Method

* `lean/Verif/Core/` – a small C++ abstract machine. A computation is a function
  `State → Res`, where `Res` is `ok value state | throw exception state | ub reason | timeout`.
  Undefined behaviour is a distinct outcome that no handler can catch, so "never UB" is a statement
  about every theorem whose conclusion is `= .ok …`.
* State = object table (fields of each named container object; methods receive the *name* of `*this`
  and of their reference arguments, so aliasing such as `v = v` is modelled literally), a heap of
  allocated blocks (block identities are never reused, so dangling pointers are detected), and a
  countdown that says at which allocation / element copy the next exception is thrown (`none` = never).
* Array slots and nodes distinguish "allocated, no live object" from "live object with value v".
  `construct_at` over a live slot, `destroy_at` of a dead slot, reading a dead slot, `deallocate` with
  a wrong size or with live elements inside, and null/dangling/out-of-range access are all UB.
* Loops whose bound is syntactically evident are structural recursions on the trip count; pointer-chasing
  loops and recursions take fuel and return `timeout` when it is exhausted; theorems show an explicit
  sufficient fuel.
* Each container has: `Model.lean` (the code), `Spec.lean` (mathematical sequences/sets/maps, a list of
  operations and what a user may observe – no reference to the model), `Proofs.lean` (representation
  invariant + method lemmas), `Props.lean` (the property theorems with `example` witnesses).
* A *world* is any number of container variables. `World` relates the machine state to one abstract
  value per variable and demands: each variable owns a disjoint set of blocks, every allocated block is
  owned (no leak), and the object's fields represent its abstract value. Every method lemma has the
  form "World before ⇒ run ends `ok` with the specified result, World after", so histories follow by
  induction, and "destroy everything ⇒ heap empty" is immediate.
* Where the code violates a property the negation is proved with a concrete witness (theorem name
  ending in `_refuted`), and the strongest true restriction is proved with suffix `_partial`.

## 2. Trusted base

* Lean 4.33 kernel; axioms `propext`, `Classical.choice`, `Quot.sound` only (checked with `#print axioms`).
* The hand translation C++ → Lean (cited line by line), and the abstract machine's reading of the
  C++ standard.
* Element types are modelled as values: copy construction/assignment duplicates the value (and may
  throw, where the property is about exceptions), move = copy (the library's observable value effect for
  value types), destruction ends the lifetime. Comparators/`==` are pure total functions.
* `size_t` arithmetic is unbounded `Nat` except where the code relies on wraparound (deque's
  `m_back_chunk`, string `npos`, compare's clamping), where it is modelled explicitly. No theorem covers sizes ≥ 2^63.
* `std::` algorithms that the library calls (`std::copy`, `std::rotate`, `std::swap`, `char_traits`,
  `std::equal`…) are modelled by their standard meaning.
* Allocators are `std::allocator`, except in Verif/Alloc (C159, C160, C161), where they are arbitrary values; allocation never fails unless the property is about exceptions.

Not modelled: `using std::…` re-exports (algorithm, numeric, array, utility, iterator, limits, fstream),
`runtime_ostream`/`iostream` output (no effect during constant evaluation), locale, `wchar_t` files,
compile-time-only concerns (overload resolution, constexpr-ness), multi-threading (the library is single threaded).

## 3. Plan per property

| id | model | proof |
|----|-------|-------|
| C01 C02 | vector methods over block heap, multi-variable histories | World invariant + induction over history |
| C03 | capacity and data pointer are part of the abstract value | method lemmas give them explicitly; doubling by induction |
| C04 C06 C10 | at / erase / == | case analysis, loop lemmas |
| C05 | aliasing by object name | World lemma for every pair incl. x = y |
| C07 | reference argument = `ext v` or cell of a block | refuted when full; partial when size < capacity |
| C08 C09 | throw countdown, destructor on unwinding | refuted with a throw point; partial for the throw points that are safe |
| C11–C18 | deque with explicit chunk table, chunk size a parameter (1024 instance) | layout invariant; refutations by concrete histories; partial on the safe transitions |
| C19 C20 | deque copy, queue adapter | deque lemmas |
| C21–C25 | list nodes with next/prev, sentinel as pointer to the object | circular-chain representation; address-carrying sequences for iterators |
| C26–C28 | forward_list chain | chain segments |
| C29–C34 | set nodes with l/r/p/colour, recursive insert on slots, rotations as n-ary swaps | heap representation of annotated tree, refinement to functional Okasaki insertion, RB invariants |
| C35–C38 | same tree with pair values | instance of the set development with key projection; iterator by key == |
| C39–C49 | string buffers (no lifetimes inside: characters are implicit-lifetime) | World invariant; find/compare against list spec |
| C50 C51 | swap over list of references | induction on arity |
| C52–C56 | pointer objects over heap of dynamic objects / control blocks | World invariants; refutations for empty copy and defaulted assignment |
| C57 | function = owned closure state | unique_ptr-like world |
| C58–C64 | streambuf pointers into the string buffer, ios state bits | invariant position ≤ length; induction over reads |
| C65 | cctype via string find | reduction to find lemma, all Int |
| C66–C73 | cmath over exact ordered fields (rounding not modelled ⇒ partial) | algebra; Newton contraction for sqrt; divergence by induction on fuel |
| C74–C76 | complex over commutative rings / fields | ring laws |

Status of each is in `MANIFEST.json`; deviations and refutations are recorded in section 4 as they are established.

## 4. Findings (filled in as theorems are proved)

### vector (C01–C10)
* C07 violated: `push_back(const T&)` calls `reserve` (which frees the old storage) before it reads its
  argument, so `v.push_back(v[i])` with `size()==capacity()` reads freed storage
  (`C07_vector_push_own_full_ub`, for *every* full vector). It is correct when no growth is needed.
* C08 violated: `push_back` increments `m_size` before constructing; if that copy throws, the destructor
  destroys a slot that holds no object (`C08_vector_push_throw_ub`). If growth throws, contents survive but
  the newly allocated block is leaked when the exception comes from an element copy.
* C09 violated: the delegating copy constructor sets `m_size` before the elements exist; a throwing element
  copy makes the destructor (run because the delegated-to constructor finished) destroy non-existent elements.

### list (C21–C25)
* Elements have identities = allocation numbers; iterators are node pointers, so "stored iterator still
  designates the same element" is part of the history theorem C21.
* C25 violated for self-assignment: `operator=` clears first and then copies from the now empty source
  (`C25_list_self_assign`: every list becomes empty).

### forward_list (C26–C28)
* `operator=` is copy-and-swap; its local `tmp` is an extra variable `t` of the machine (any name not in use).
  Assignment, also self-assignment, is correct.
* C77 violated: the copy constructor is not delegating, so no destructor runs when an element copy throws:
  exactly `(k+1)/2` nodes are leaked when the `k`-th allocation/copy throws.
* C78 violated (list and forward_list): a throwing element copy leaks the node just allocated.

### set and map (C29–C38, C79, C80)
* One model for both headers (`Tree/Model.lean`), with key projection, comparator and key equality as
  parameters. The recursive lambda `ins(node*& n, node* p)` works on *references to link fields* (`Ref`), the
  rotations are the actual 6-ary `nary::swap` calls. Functional trees (`Tree/RB.lean`) are used in proofs only;
  the balance theorem speaks about nodes in memory (`RBMem`, including the parent links).
* C34/C80 violated: self-assignment empties the container (clear before copy).
* C36 violated for unusual keys: `map`'s `operator++` tests "am I the right child" by comparing *keys* with `==`.
  If `==` identifies keys that the comparator distinguishes, iteration skips elements
  (`C36_map_iteration_refuted`: with keys 2, 1, 3 the loop stops after the first). It also requires `==` to be
  reflexive. `set` compares node pointers and is fine.
* C79/C80 violated: `insert` stores the new node's address in the tree before constructing the node; if the
  copy of the element throws, the tree contains a pointer to raw storage and `clear`/the destructor is undefined.
  The copy constructor delegates, so the same happens during its own unwinding.
* By reading only: `map`'s `find` overload returning `{n}` cannot compile with the explicit iterator constructor
  (templates that are never instantiated); not modelled.

### string (C39–C49, C81)

* C42: the copy constructor (string.hpp:65), `operator=(const basic_string&)` (237-239) and
  `find(str, pos)` (137-140) go through `c_str()`, so contents after an embedded terminator are lost.
* C43: `s = s` frees the buffer before copying from it when `capacity() == size()`; otherwise it calls
  `Traits::copy` on identical ranges, which the standard forbids. The model has a flag `copySame`
  for traits that tolerate it; then the string is unchanged.
* C45: `find(ch, pos)` (142-145) ignores `pos`.
* C48: the input-iterator constructor starts with `m_p = nullptr`; for an empty range the final
  terminator is written through it. (For a non-empty range the null pointer is passed to `deallocate`
  once; the model counts that as harmless.)
* C49: `push_back(s[i])` reads its argument after `reserve` freed the buffer.
* C81: `operator=(const CharT*)` frees before it allocates: after `bad_alloc` the string holds a dangling
  pointer. The input-iterator constructor leaks its buffer if a later allocation fails.

### deque and queue (C11–C20, C82–C84)

* All theorems are parametric in CHUNK_SIZE `K >= 2` (the source uses 1024). `m_chunks` is a list with a capacity.
* C11: `push_back_helper` (deque.hpp:328-338) increments `m_back_chunk` only if the back chunk is the last chunk.
  After pop_back or clear left unused chunks behind it, filling the back chunk continues at slot 0 of the *same*
  chunk. 513 times push_back, pop_back, push_back, `d[512]` is undefined behaviour. `C11_deque_fault_exact` shows
  that the excluded state is faulty in every case, not only in the witness.
* C14: `end()` is one past the last slot of the back chunk, `operator++` leaves a chunk at its last slot and goes to
  the next: when the last element is the last of its chunk, the loop never meets `end()`.
* C15: `operator--` at slot 0 goes to slot 0 of the previous chunk (deque.hpp:63-65).
* C16: `operator-` computes `__x.m_ppchunk - __x.m_ppchunk`, i.e. ignores the chunk distance.
* C19: `x = x` empties `x`; assignment of more than half a chunk to a deque owning three or more chunks runs into C11.
* C82: the members are updated before the element is constructed; a throwing copy leaves a deque whose destructor is
  undefined. The copy and initializer-list constructors delegate, so their unwinding hits the same problem.
* C84: the new chunk leaks if `m_chunks.push_back` throws.
* The queue uses push_back and pop_front only, for which the deque is correct (C12), so C20 holds without exception.

### unique_ptr, function and shared_ptr (C52–C57, C85)

* unique_ptr and function are right. The pointee's destructor is assumed not to touch other pointers. The client's raw
  pointers are variables of the model; it uses them linearly. The relational operators on addresses are not modelled.
* C57: the constructor of `function` copies the callable even when given an rvalue (`f_(f)`, functional.hpp:25).
* C55: `shared_ptr(const shared_ptr&)` and the aliasing constructor increment `pctrl_->count_` without a null check
  (shared_ptr.hpp:83-88).
* C56: no copy assignment is declared; the implicit one copies both members and no count changes: the old object leaks
  and the new one is deleted too early, then twice. Proved as a general law (`C56_sptr_assign_count_wrong`).
* C85: `shared_ptr(Y*)` does not guard `new ctrl_derived` with a try block; the object leaks on `bad_alloc`.
* `long count_` is unbounded in the model.

### streams, fmemopen, cctype (C58–C65, C86)

* The stringbuf's string is an object of the string model and the get area points into its storage, so dangling and
  out-of-range pointers would show. Programs may mix any number of streams, strings and arrays.
* `to_int_type(c) != eof()` is a hypothesis (`he`): true for char, false for wchar_t(-1).
* C63: `str(s)` assigns through `c_str()` (string.hpp:237-239), so a stream given a string with an embedded terminator
  delivers only the part before it. The constructors copy by length and are not affected.
* C86: `_M_ctype` is set to null by both constructors and never changed (basic_ios.hpp:123-124, 139-140; `init` does not
  cache the locale). With libstdc++ `__check_facet` throws bad_cast, the sentry's handler sets badbit. So every white-space
  skipping sentry fails. The headers' own functions all use `noskipws = true`.
* `str() const` of the string streams calls a member that does not exist (sstream.hpp) and is not modelled.

### complex (C74–C76, C92, C93)

* The number type is any commutative ring (field for division); the specification is Mathlib's `QuadraticAlgebra T (-1) 0`
  i.e. `T[i]`. Objects are cells of the machine, so `z *= z` and the like are about aliased operands.
* All three hold. In `operator*=` and `operator/=` the temporaries make the aliased calls right.
* A division whose divisor has norm zero divides by zero: an outcome of its own. Over a formally real field this means the
  divisor is zero.
* `operator>>` and `operator<<` are not modelled; for the transcendental functions see below.
* `complex.hpp` does not include `cmath.hpp`; `abs`, `sqrt`, `atan2` on `double` are found only by ordinary lookup at the
  template's definition. C92 and C93 are about the case that `cmath.hpp` was included first.

### cmath (C66–C73, C87–C93)

* Numbers are elements of an ordered field, every operation is followed by a rounding function `ρ`. `ρ = id` gives exact
  arithmetic. For C66 and C69 `ρ` is IEEE rounding on the finite binary64 numbers, for C67 any rounding with a relative error
  bound, for the symmetries of C72 any function. The accuracy theorems C68, C87–C93 use `ρ = id`: they bound the
  error of the *method*, not the rounding error of a double evaluation.
* No infinities, NaN, signed zeros; no overflow of double. `x / 0` is undefined behaviour. (The model of C135 and C136 has them
  all.)
* Functions recursing on a double get fuel; `Gives f v` says that every sufficiently large fuel yields `v`, so it implies
  termination. The non-termination theorems hold for every fuel.
* C66: `floor(v)` for negative non-integers converts `v - 1`, which is rounded: `floor(-0.99999999999999988898)` is -2.
  Likewise `ceil(0.99999999999999988898)` is 2.
* C67: `pow(b, INT_MIN)` negates INT_MIN.
* C69: `sqrt(0)` halves the guess for ever (in double until it underflows to zero and divides 0/0); for negative numbers the
  stopping test `|g - x/g| < tol*g` cannot hold. `cosh` calls it with arguments >= 1, `log` with arguments >= 1,
  `__complex_abs` guards zero.
* C71: near the ends of the `int` range `exp` is undefined (in double it would be infinite or zero there).
* The comment before `exp` claims |fraction| < 0.5; for negative x it is only < 1 (`nearest` truncates), which is why the error
  bound of C89 is not smaller. `fraction(-0.75)` is -0.75.

### output streams, printf, fprintf (C94–C100)

* `Ostream/Std.lean` is a trusted, reduced `std::ostream` (text, flushed prefix, base, good) and the conversion of `printf` is a
  parameter. The specification applies the calls of a program to those directly; cest's operators reach them through
  `runtime_ostream`.
* `operator<<(long)` cannot be linked: it constructs a `sentry` whose constructor is declared but not defined. Not modelled.
* C95: `hex`, `oct`, `dec` return their argument; `cest::cout << cest::hex << 255` prints 255.
* C96: `runtime_ostream` does not look at the stream's state; a failed `cest::cout` still prints.
* C97: `operator<<(os, string)` passes `c_str()`, so output stops at an embedded terminator.
* C98: `flush()` calls the stringbuf's `sync`, which does nothing; the standard stream is not flushed.
* C99: `printf(format)` is `std::printf("%s", format)`, so `%%` prints two percent signs.
* C100: `fprintf` sends its buffer as a C string (stops at an embedded terminator although the count includes what follows);
  when the conversion fails `nbytes` is negative, the buffer is empty and reading it is undefined; `fprintf(stream, format)`
  always returns 0. The buffer is freed on every path that ends.

### complex transcendental functions (C101–C103)

* Over the cmath model with `ρ = id`; specifications are Mathlib's `Complex.cos` etc., and for `sqrt` the equation `w^2 = z`
  with the principal sign.
* C103: `__complex_sqrt(0)` takes the branch `x == 0` and calls `sqrt(0.0)`, which does not return (C69).
* `log10`, `tan`, `tanh`, `pow(complex, T)`, `pow(complex, complex)`, `pow(T, complex)` and `__complex_sqrt` call `std::log`,
  `std::sin`, `std::abs`, … on `cest::complex`; there is no such overload, so instantiating them is a compile error. `sqrt` is
  modelled with `cest::abs`; the others are not modelled.

### the elementary functions in binary64 (C104–C108)

* Same model as C66–C93, with `ρ` any rounding to a nearest finite double (`RoundsToNearest`; ties are left open, and
  `exists_roundsTiesEven` shows that round-to-nearest-even is one). Subnormals are included. `ρ` maps beyond the largest double to
  the largest double instead of infinity, so the theorems keep away from overflow by their ranges: `sqrt` up to `2^960`, `exp` up
  to 700. For `sin` and `cos` the range keeps the error bound meaningful (it grows with the square of the argument).
* Not covered: excess precision, fused multiply-add, other rounding modes.

### shared_ptr with deleters, arrays, derived pointers (C109–C113)

* `Sdel/` extends the shared_ptr model of `Sptr/` with control blocks that hold a deleter (its type and value), arrays, and the type
  an object was created with. Calling a client's deleter is recorded in a log; whether a deleter type deletes is a parameter of
  the theorems (`frees`). Default construction, aliasing and assignment are in `Sptr/` (C54–C56, C85).
* C110: `get_deleter<D>(p)` casts to `ctrl_derived<element_type, D>`, so it finds nothing if the constructor was given a pointer to
  a derived class (the block is a `ctrl_derived<Y, D>`).
* C111: `shared_ptr<T>(new Y)` uses `def_del<T>`: `delete` through a `T*`, undefined without a virtual destructor; std::shared_ptr
  deletes the `Y*`.
* C112: if `new ctrl_derived` throws, the deleter is not called and the object leaks.

### default constructor of string (C114), function copies (C115), cin (C116), bit masks (C117), vector (C118)

* The machine has an outcome `terminate` for `std::terminate` (an exception leaving a `noexcept` function or a destructor run by
  unwinding). It is listed with the kinds of undefined behaviour because nothing can catch it either.
* C114: `basic_string()` is `noexcept` but allocates two characters; if that fails the program is terminated.
* C115: for a non-const variable `f`, `function g(f)` prefers the template `function(F&&)` with `F = function&` to the copy
  constructor; it stores a copy of `f`, made the same way. The recursion ends only by exhaustion of the stack or the storage.
* C116: `cin` is an `istream` over a `stringbuf` that holds the text "cin"; nothing reads standard input.
* C117 works on 32-bit integers. The other stream files use one Boolean per state bit; `C117_decode` connects them.
* C118: what a move leaves behind is a parameter of the theorem.

### complex<double> in binary64 (C119, C120)

* The model of `complex.hpp` is generic in the component type's operations. C74–C76 instantiate it with rings and fields, C119 and C120
  with `Flt ρ`, real numbers whose operations round to a nearest double.
* C119: `operator/=` divides by `norm(z)`, a sum of squares, which is 0 for every divisor whose parts are at most `2^-538`; then
  the program divides by zero although the quotient may be 1. (Large divisors overflow in the same way above `2^512`; infinities are
  outside the model.)

### hyperbolic, inverse and complex functions in binary64 (C121–C124)

* Same models as C89–C103 with `ρ` a rounding to a nearest double. The bounds are against Mathlib's functions.
* C121: `cosh` computes `sqrt(1 + sinh² x)`, so the square overflows from |x| of about 355 on, where `cosh x` itself is only `10^154`;
  with an infinite argument the loop of `sqrt` would not end. The theorem stops at 331, where the proved range of `sqrt` (up to
  `2^960`) ends.
* C124: as in exact arithmetic, `sqrt(0)` does not return. The range of the square root keeps the sum `2 (|z| + |x|)` inside the
  range of the real square root.

### depth and cost of the recursions (C125, C126)

- The fuel of the model is the depth of the recursion, so bounds on the fuel are bounds on the nesting of calls.
  `sqrt_helper` halves its approximation until it is near the root: about `|log2 x| / 2` levels.  Within 2^-980..2^960
  508 levels are enough; for every positive number up to 2^-1023 512 are not (`C125_sqrt_refuted`), so
  `cest::sqrt` of a subnormal number is not a constant expression with the default `-fconstexpr-depth=512`.  The same
  holds at the other end, for every double from 2^1020 on (`C125_sqrt_big_refuted`): the approximation starts at half
  of `x` and can at best be halved, which takes 509 steps down to twice the root, and then three more calls.
- `sin_helper` and `sinh_helper` call themselves twice with the same argument, once for the angle and once for its
  cube.  `Cmath/Cost.lean` repeats the two recursions with a counter (`C126_counts`: same results); the number of calls
  is 2^(d+1) - 1 for `d` divisions by three (`sin_calls`), that is, it grows like `x^0.63`.  From 10^9 on it exceeds
  2^27, above the default `-fconstexpr-ops-limit` (`C126_sin_refuted`).

### allocations, copies and storage (C127–C130)

The machine has a countdown `thr` of operations that may throw: allocations, copy constructions, copy assignments
(it was introduced for exception safety). Started with `some (k + c)`, a program that makes `c` of them ends with
`some k`, so "the program run with `k + c` ends normally with `k` left" says it makes exactly `c`. `Core/Cost.lean`
has the calculus (`CostLe m b`: from every state at most `b`, whatever the outcome), `Core/NCost.lean` the version
relative to the number of allocations. Destructor calls, comparisons, pointer moves in `m_chunks`
and pointer arithmetic are not counted.

- C127: potential-function argument: `push_back` pays 4; the potential of a vector is `max 0 (2·size − capacity)`.
- C128: the price depends only on the number of elements ever created; a duplicate `insert` costs nothing.
- C129: every push costs at most 3 (chunk, growth of `m_chunks`, element), from any state, so the C11 fault does not
  enter the bound; it enters the theorem because a program that meets it has no result.
- **C130, a violation.** `pop_front` moves `m_front` forward and never releases a chunk, and `push_back_helper` only
  looks at the chunks behind `m_bchunk`. A queue that never holds more than one element holds ⌈(K/2 + n)/K⌉ chunks
  after `n` times `push(v); pop();` — storage proportional to the pushes ever made. The same happens to a deque used
  with `push_front` and `pop_back`. Proved: the exact number; that no bound in the size exists; and the part that
  holds, less than one unused chunk behind the last element.

### exceptions in vector, references into a deque, growth of a string (C131–C133)

- **C131, violations.** `reserve` loses the block it has just allocated when copying an element throws (the old
  contents stay intact, one block is leaked); `resize` and copy assignment construct behind `m_size` and set `m_size`
  last, so a throw leaves live elements that the destructor never destroys (the model reports this as freeing live
  storage, `liveFree`; in C++ it is a leak of whatever these elements own); the constructor from a size has no handler,
  and no destructor runs for an object whose constructor threw. Proved: assignment to an element and a failing
  `allocate` change nothing; `erase` and an overwriting copy assignment leave the vector usable, with the contents
  stated exactly.
- C132: a reference is modelled as block and index. The theorem follows one element by its logical index through any
  sequence of pushes and pops at the ends and says it is still at the same address, holding the same value.
- **C133, a violation.** `push_back` doubles, `append` reallocates to exactly the needed size. Characters added by
  `append(&c, 1)` or `+= string` to a full string cost one allocation and one copy of the whole string each.

### comparators of set and map (C134)

- `Tree/Cmp.lean` repeats `find` and `insert` with comparator calls that count and may throw; with nothing counted it is
  shown equal to the model of C29–C38 (part of `C134_insert_comparisons`).
- **C134, a violation.** `insert` compares with `m_begin->x` (set.hpp:221, map.hpp:285) after the new node was linked and
  before `m_size++`. A comparator that throws there leaves an element which `find` finds, `size()` does not count and, if
  it is the smallest, iteration from `begin()` does not visit; the ancestors are not rebalanced. Destruction is still
  safe. Evaluating the comparison before the allocation would repair it. All other comparisons happen before any change.

### cmath with all values of double (C135, C136)

`Verif/Ieee` is a second model of the same functions over NaN, the infinities, both zeros and the finite numbers, with overflow.
Where the first model has a result and no intermediate value overflows, the second has the same (`sin_value`, `logHelper_sim`
and others in `Values.lean`, `Log.lean`), so the error bounds carry over; the new part is where this is so and what happens elsewhere.
It describes run time on an IEEE 754 machine; a compiler rejects a constant expression that divides by zero or yields NaN.

- **C135, violations.** No function returns for every double. The loops end on a comparison, and all comparisons with NaN are false:
  `sqrt` never returns for ±0, negative numbers, infinities and NaN; `sin`, `cos`, `sinh` for infinities and NaN; `cosh` also
  from |x| = 356; `log` for NaN (in `sqrt`) and +infinity (`mantissa` divides by ten for ever); `atan` for NaN; `atan2(y, x)` for x > 0 with y NaN and for two
  infinities; `abs` of a complex number for every non-finite part (except zero real part with NaN imaginary part, where the result is zero).
  "Never returns" is unbounded recursion: in practice a stack overflow. `exp`, `floor` and `ceil` convert to
  `int`, which is undefined for these values and for those out of range.
- **C136, violations.** `cosh(x)` for 356 ≤ x ≤ 700 has a value far inside the range (C121 explains the overflow). `exp(709.625)` is
  infinite because `pow(M_E, 710)` overflows before it is multiplied by `e^-0.375`; `exp(x)` is zero
  from -710 down, where the values are subnormal numbers. `pow(2, n)` is `1 / pow(2, -n)`, which is zero for the 51 exponents of subnormal
  powers. `atan2` of a NaN is the number 0.
- The exact sets: `cosh` returns up to a number `c` with 355 ≤ c < 356 (which double it is depends on how ties are rounded, so the
  theorem says that it exists) and is accurate up to there. `exp` is defined exactly for -2147483648 < x ≤ 2147483647.5: the smallest
  `int` is out because `pow` negates it. It is accurate for -710 < x ≤ 709.5, with subnormal results at the lower end.
- `sinh` is accurate for every finite double, or infinite with the right sign where the exact value is at least 0.996 times
  the overflow threshold (`C136_sinh`).
- `sin` and `cos` have no argument reduction. In every interval of length ten between 3·2⁵² and 2⁵⁴ there is a double for
  which the result is wrong by a tenth (`C136_sin_refuted`, `C136_cos_refuted`). The reason is simple: `x / 3.0` is the same
  double for two neighbouring doubles of every three, so the recursion cannot tell them apart.
- Between the ranges of C106 and 3·2⁵² see C154: the error of `sin` and `cos` is at most 5.2·10⁻⁷ (|x| + 6), which says
  nothing from about four million on.

### elements passed by reference (C137)

- The models of the containers take the inserted value itself. `*/Alias.lean` models the same functions with the address of the
  argument, read when the code reads it, and shows that an argument inside the container makes no difference (`deque` had the
  reference in its model from the start). `vector` is C07, where it does make a difference.
- Observation: the nodes of `list` and `forward_list` have only a constructor from `const value_type&` (list.hpp:54, forward_list.hpp:29),
  so `push_front(T&&)`, `insert_after(pos, T&&)` and `emplace` copy the element, and these functions do not compile for
  types that can only be moved. The argument of `forward_list`'s rvalue overloads is never moved from.

### programs that catch exceptions (C138)

- `List/ThrowSpec.lean` and `FList/ThrowSpec.lean` say what an operation leaves behind when its (k+1)-st allocation or element copy
  throws. `ThrowRun.lean` runs each operation as `try { op } catch (...) {}`. The proofs reuse the refinement of C21/C26 by a frame
  argument (`Core/Frame.lean`): the functions do the same when storage that nobody refers to is added to the state.
- Assignment of `list` clears the target first, so an exception leaves a prefix of the source and loses the old contents;
  `forward_list` copies and swaps, so the target is unchanged, but the nodes of the failed copy are lost because the copy constructor
  does not delegate (C77).

### programs that run out of storage (C139, C140)

- `Tree/Oom*.lean`, `Str/Oom*.lean`: as in C138, each operation is run as `try { op } catch (...) {}`. For sets and maps a throwing copy
  of an element into a new node is excluded (C79: the node is linked before its element is constructed); a failing allocation is not.
- The specification of strings now includes `capacity()`, which decides when an operation allocates (`Str/OomSpec.lean`: `grows`). It
  is proved of all programs, and that each operation makes exactly the allocations the specification says (`Str/Cost.lean`,
  `Str/Caps.lean`).
- Observation: the construction from a single-pass range ends with capacity 2^(k+1) - 2; `push_back` doubles; `append` and assignment
  grow to the exact size (C133).

### programs with vectors that catch exceptions (C141)

- `Vector/Hist*.lean`: the specification (`HistSpec.lean`) carries the capacities, because they decide when storage is moved, and
  says of every operation and every number of successes before the exception what is left: nothing changed (perhaps a lost block), a
  mixture of old and new elements, or a broken vector.
- Broken are: `push_back` whose element copy throws (C08: the size is counted first), a copy construction whose element copy throws
  (C09), `resize` and assignment whose second or later new element throws (C131: constructed elements that are never destroyed). A
  program that goes on after one of these has no meaning in the specification.
- The proofs use the frame lemmas of `Core/Frame.lean`, now also for arrays (`Core/FrameArr.lean`): operations do not see lost blocks.

### programs with deques that catch exceptions (C142)

- `Deque/Hist*.lean`: as in C141. The specification carries, for every deque, the position of the first element in its first chunk, the
  number of chunks and the room in the table of chunks, because these decide which push allocates a chunk and which the table too.
- A push makes no allocation, one or two, and then a copy. Failing at the first changes nothing; failing at the second loses the chunk
  (C84); a copy that throws breaks the deque (C82) and ends the specified programs.
- Programs that meet the faults of C11 (push_back after a removal at a chunk boundary), C14 (iteration with a full last chunk)
  or C19 (self-assignment) have no meaning in the specification (`layAfter`).

### smart pointers and functions when storage runs out (C143)

- `Sptr/Oom*.lean`, `Uptr/Oom*.lean`: as in C141. `shared_ptr(new T)` makes two allocations; if the second fails the object is lost
  (C85) and the specification lists it with its name and value. All other operations that throw change nothing.
- An allocation and the construction in it are one step of the model, so a constructor of the pointee that throws is the same as an
  allocation that fails. In C++ the storage is released by the new-expression in that case, which is what the model does.

### order and ranges of the elementary functions (C144, C145)

- `Fp/Order*.lean`, `Fp/Range*.lean`, over the binary64 model of C106 and C121. Only `pow` and `sinh` preserve order. Witnesses of
  `x < y` with `f(y) < f(x)`: `sqrt` 545/512 and 1091/1024 (one Newton step more), `log` likewise, `exp` -65535/65536 after -1 (the
  rounding of the exponent by `nearest`), `sin` at `tol` (the linear branch lies above the cubic one), `atan` 131071/131072 and 1 (change
  of branch), `cosh` 515/2048 and 2073/8192, `floor` and `ceil` next to integers (C66).
- `sin` and `cos` never leave [-1, 1], for any double; this needs ties to even at the doubles next to 1/2. `sqrt(4)` is above 2.0006;
  in exact arithmetic 1 is the only number whose square root is exact.

### characters that look like the end of the file (C146)

`sbumpc`, `sgetc` and `sungetc` return `to_int_type(c)`, and `get` and `unget` compare it with `eof()` (istream.hpp:163,
210). For `char` they never agree, for `wchar_t(-1)` they do (`WEOF`). `get` then reports the end of the file in the
middle of the contents and skips the character; `read` goes through `xsgetn` and delivers it; `unget` sets `badbit`
although the position has moved. C58 to C64 assume that there are no such characters, C146 makes no assumption.

### streams that run out of storage (C147)

The constructors with a string and `fmemopen` clean up whatever fails. `istringstream x;` and `stringstream x;` construct
a string with the `noexcept` default constructor, so a failing allocation terminates the program (C114,
C147_default_terminates). `x.str(s)` goes through the string's assignment, which frees the old buffer before it
allocates the new one (C81): after a failure the stream's pointers dangle and its destructor frees the buffer twice
(C147_str_breaks). The storage of the stream that `fmemopen` makes with `new` is one of its three allocations; in the
model its release is the end of the stream's lifetime.

### iterating over sets and maps (C148)

No finding: a traversal of n elements makes at most 2n - 1 pointer moves, and `clear()` recurses at most 2 log2(n+1) + 1 deep. The
moves are counted by `Tree/Walk.lean`, a copy of `operator++` with a counter; `C148_counts` shows that dropping the counter gives
back the model of `operator++` in every state.

### shared pointers with deleters when storage runs out (C149)

No new finding: after any number of failed allocations the library is in a consistent state, and what is lost is exactly what C112
describes, one object and one uncalled deleter for every constructor whose control block could not be allocated. The
specification of failures is `Sdel/OomSpec.lean`.

### identities of the elementary functions (C150)

No finding beyond the accuracy already recorded: the identities hold to about three digits, the accuracy of the functions.

### C151 (cost of searching strings)

`find` is the plain search: it tests each start position once and compares the needle there from its beginning, so
it is quadratic in the worst case (`C151_find_worst`, for every length) and linear when the first character of the
needle is rare (`C151_find_bound`).  The counts are those of the calls of the traits class made by the code.

### C152 (integer powers in binary64)

`pow` multiplies `n - 1` times, so its error grows linearly with the exponent: about `n/2` units in the last place
in the worst case the theorem allows, where a library `pow` has less than one.  No claim of the interface is
violated; exact results (integers, powers of two) stay exact.

### identities of the complex functions (C153)

Composed from the bounds of C122 and C124 applied to computed arguments. `exp(log(z))` loses a factor of about two against
the real case (C150) because `log` adds an absolute error to the real part; the argument contributes little.

### sin and cos of every double (C154)

`3a - 4a³` maps sines to sines of three times the angle, so all errors of `sin_helper` can be read as errors of the angle. A
rounding error near `|a| = 1` moves the angle by the square root of the error, which would ruin a step by step bound on the
value; as an error of the angle it is damped by all the earlier steps together, because it is added after a multiplication
by three. `Fp/SinAll.lean` follows the angle. It needs `|a| ≤ 1` at every step (C131, ties to even), otherwise there is no
angle. The main error is not rounding but the tolerance: below 10⁻³ the angle itself is returned for its sine.
The rounding-generic bounds of C106 remain for the other roundings.

### complex arithmetic on all doubles (C155, C156)

`CxIeee` instantiates the model of `complex.hpp` with the doubles of `Ieee/Model.lean`; only the divisions are modelled again,
since dividing by zero is defined there.

- `operator/=` divides by `norm(w)`, the square of the modulus. `w / w` is NaN for every `w` with a part of at least 2⁵¹² and for
  every `w` with both parts up to 2⁻⁵³⁸ (`C155_div_overflow`, `C155_div_underflow`). For large divisors every quotient is zero or NaN.
- Dividing any number by any infinity, or by zero, gives NaN + NaN i (`C156_div_inf_refuted`, `C156_div_zero_refuted`); dividing
  by the same values as a real number is right (`C156_div_real`), so `z / 0.0` and `z / complex(0.0)` differ.
- An infinity with two infinite parts times a real number is NaN + NaN i (`C156_mul_inf_refuted`).

The C++ standard does not ask for annex G; libstdc++, from which the file is taken, uses the compiler's complex division for
`complex<double>`, which follows it. `cest` has only the generic template.

### which arguments the complex functions return for (C157)

`ComplexFn/IeeeModel.lean` repeats the complex transcendental functions over all values of type `double`.  None of
them returns for every argument: `arg` never returns for two infinite parts (nor for a positive real part beside NaN), `polar` for
an infinite angle, `cos`, `sin`, `cosh`, `sinh` beyond about 355 in the hyperbolic direction (the true values are finite up
to 710), `log` when the absolute value overflows, `sqrt` for zero and for real parts from 1.01·2^1022 on, `exp` is undefined when the
real part does not fit in an `int` (also on the side where the result is zero).  Apart from `sqrt` the theorems are equivalences.

### values of the complex functions on all doubles (C158)

For the arguments of C157 the circular and hyperbolic functions, `polar` and `log` are accurate, with explicit bounds, and
`sqrt` is for absolute values from 2^-1050 to 0.999·2^1022 (wider than C124).
`exp` is not: the real `exp` is infinite from 709.5 on although its value is finite up to 709.78, and `exp(x + 0i)` for
`x > 709.5` has NaN for its imaginary part because infinity is multiplied by zero (`C158_exp_refuted`).  `log` of zero has imaginary part zero
for all four combinations of signs (`C158_log_zero`); annex G of C asks for ±π when the real part is minus zero.

### allocators that differ (C159, C160, C161)

The containers take an allocator parameter. Verif/Alloc models all of them with allocators that need not be equal; the elements are
left out, only the storage is kept track of. `C159_partial`: every program returns every block to an equal allocator, once, with
the right size, apart from two constructs. `C159_exact` shows that there are no others.
* **`forward_list::swap` does not exchange the allocators, and `operator=` is built on it** (forward_list.hpp:112-123). When
  default-constructed allocators differ, `l = l` already hands a node to the wrong one (`C159_forward_list_refuted`).
* **The string constructor from input iterators starts by deallocating a null pointer** of one character (string.hpp:95) for
  every non-empty range; for the empty range it writes through the null pointer.
* **`deque(init, alloc)` ignores `alloc`** (deque.hpp:169-173), and **every copy constructor default-constructs its allocator**
  instead of taking the one of the source (`C160_deque_refuted`, `C160_copy_refuted`).

With failing requests (C161; a set of requests that fail, `std::bad_alloc` caught after every statement) the same holds for all programs
that avoid these:
* **`vector(init, alloc)` and the copy constructor of `forward_list` lose what they have allocated** when a later request fails: they do
  not delegate, so no destructor runs (vector.hpp:65-70, forward_list.hpp:100-110). The copy constructors of the other containers
  delegate and are right. `forward_list::operator=` and the string constructor from input iterators have the same leak.
* **`basic_string::operator=` deallocates before it allocates** (string.hpp:224-227): after a failed request the destructor
  deallocates the same pointer again, with another size (`C161_string_assign_refuted`).
* **`basic_string()` and `basic_string(alloc)` are noexcept and allocate**, so a failed request ends the program.

The string violations agree with C81 and C114, which look at one string with `std::allocator` and with characters.

### nary::swap with moves (C162)

Verif/Swap/Move.lean models moves: an object that was moved from has no value, and assigning an object to itself by move destroys its
value. `C162_swap`: even so, and whatever arguments name the same object, the values are only permuted.

### queue over list (C163, C164)

Verif/List/Queue.lean is the queue with list as its container. It is first-in-first-out for all programs and holds one node per element,
whereas the queue over deque grows with the number of elements that have passed through it (C130). `pop()` of an empty queue is
undefined here and does nothing over deque. C164 adds the cost and exceptions: a `push` whose element copy throws changes nothing but loses
the new node, as in C138.

### queue over deque with exceptions (C165)

A queue only pushes at the back and pops at the front, so the slot behind its last element is always in the last chunk or just behind it, and
the fault of `push_back` after `pop_back` (C11) never comes up. `C165_queue_throw` says so for programs that catch exceptions of
allocations, by reduction to C142. Exceptions of element copies are left out: they break the deque (C82).

### read, but not modelled

Things noticed while comparing the models with the source that are compile errors, or that no model represents:

* `list` and `forward_list` iterators: `operator++(int)` and `operator--(int)` return the `node_base*`, not an iterator, so `*it++` is
  a `node_base`, not the element.
* `map::find` (template) returns `{n}` although the iterator constructors are explicit; `map` and `set` have no non-const `begin()`.
* `operator<<(ostream, unique_ptr<T>)` needs an insertion of `T*`, which exists only for `char`; `cout << double` is ambiguous;
  `wostream` insertion compares the address of a wide stream with `&cest::cout`.
* `ostream::operator<<(long)` uses `sentry(basic_ostream&)`, which is declared and never defined, and `_M_num_put`, which is null.
* `iostream.hpp` defines its stream objects without `inline`; two translation units that include it do not link.
* `function` cannot be made from a const lvalue callable, and a const `function` cannot be called.
* `basic_streambuf`'s copy constructor leaves the pointers uninitialised.
* complex `operator>>` needs `basic_istream::operator>>` and `putback`, which do not exist; `log10`, `tan`, `tanh` and the powers with
  a real or complex exponent call `std::log`, `std::sin`, ... on a `cest::complex`, which no such function accepts.

## 5. Wrong programs (seeded/LOG.jsonl)

Each line of the log is one edit of a model definition in a scratch copy.  The files of the component are joined
into one file, the edit is applied, and the property theorems of that component are checked with `#print axioms`;
a theorem counts as failed if it is missing or depends on `sorryAx`.  Theorems of other components are not rerun,
so the list of failed theorems is a lower bound.  `theorems_failed` includes theorems that fail only because a
lemma they use fails: it says the proof breaks, not that each listed statement is false of the edited program.

A run is only evidence if the unedited joined file checks and the edited definition itself still elaborates.  An
audit of the log found runs that met neither condition, and removed them: 17 edits of `Cmath` for C144 and C145
(the joined file declared everything twice, so it failed without any edit), 8 edits whose definition did not
elaborate, and one that crashed.  The scratch script now checks both conditions before it records a line; the
removed edits are run again in a valid form, and appear in the log only where that run succeeded.
