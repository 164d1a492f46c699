{"id": "C01", "title": "vector behaves as a sequence under every history", "statement": "For any program over any number of cest::vector variables built from default/count/initializer-list/copy/move construction, copy and move assignment, swap, push_back, pop_back on a non-empty vector, resize, reserve, clear, range erase, element assignment and destruction, no step has undefined behaviour and every observer (size, empty, operator[], at, front, back, begin..end traversal, ==) returns exactly what the mathematical sequences would.", "quantifier": "every finite sequence of operations, every number of vectors, every element values and sizes", "why_tests_cant": "a test runs one history; reallocation boundaries, size/capacity relations and aliasing combinations are unbounded", "anchors": ["include/cest/vector.hpp: vector (whole class), operator=="]}
{"id": "C02", "title": "vector element lifetimes and storage are balanced", "statement": "In every such history each element slot is constructed before it is read, destroyed exactly once, never constructed over a live element, storage is freed exactly once with the size it was allocated with, never with live elements inside, and once every vector is destroyed no storage remains allocated.", "quantifier": "every finite history of vector operations that ends with all vectors destroyed, and every prefix", "why_tests_cant": "leaks and double destruction depend on the whole history; sanitizers only see the histories that were run", "anchors": ["include/cest/vector.hpp: reserve, resize, pop_back, clear, erase, operator=, ~vector"]}
{"id": "C03", "title": "vector capacity contract and reference stability", "statement": "size() <= capacity() always; reserve(n) makes capacity() >= n, changes no element, and never shrinks; push_back, resize and copy-assignment that fit in the current capacity keep data() unchanged (pointers and references to elements stay valid); n push_backs into an empty vector give a capacity that is a power of two below 2n.", "quantifier": "every vector state reachable by any history, every n", "why_tests_cant": "growth behaviour must hold at every size", "anchors": ["include/cest/vector.hpp: reserve, push_back, resize, operator=(const vector&)"]}
{"id": "C04", "title": "vector::at is bounds checked", "statement": "at(i) returns the i-th element if i < size() and throws std::out_of_range leaving the vector unchanged if i >= size(); it never has undefined behaviour, for const and non-const vectors.", "quantifier": "every reachable vector and every index", "why_tests_cant": "index/size combinations are unbounded", "anchors": ["include/cest/vector.hpp: at"]}
{"id": "C05", "title": "vector copies are deep, moves transfer, self-assignment is harmless", "statement": "After copy construction or assignment the two vectors are equal and any later operation on one leaves the other's contents unchanged; move construction leaves the source empty and gives the target its old contents; move assignment exchanges the contents; copy-assigning, move-assigning or swapping a vector with itself changes nothing.", "quantifier": "every pair of reachable vectors (including the same one), every later history", "why_tests_cant": "aliasing shows up only for particular capacity relations and histories", "anchors": ["include/cest/vector.hpp: vector(const vector&), vector(vector&&), operator=, swap"]}
{"id": "C06", "title": "vector::erase removes exactly the range", "statement": "erase(begin()+i, begin()+j) with i <= j <= size() removes exactly elements i..j-1, keeps the order of the others, returns an iterator to position i and does not reallocate.", "quantifier": "every reachable vector and every valid pair i <= j, including empty ranges and ranges touching the end", "why_tests_cant": "boundary combinations are unbounded", "anchors": ["include/cest/vector.hpp: erase"]}
{"id": "C07", "title": "vector::push_back accepts a reference to one of its own elements", "statement": "v.push_back(v[i]) appends a copy of element i for every i < size().", "quantifier": "every reachable vector and every index, in particular at size()==capacity()", "why_tests_cant": "only histories that reallocate at that very call reveal the failure", "anchors": ["include/cest/vector.hpp: push_back(const value_type&), reserve"]}
{"id": "C08", "title": "vector::push_back under a throwing element copy", "statement": "If allocation or an element copy throws during push_back, the vector can still be destroyed without undefined behaviour and has its old contents.", "quantifier": "every vector state and every point at which a copy or allocation may throw", "why_tests_cant": "every throw point of every state has to be considered", "anchors": ["include/cest/vector.hpp: push_back, reserve"]}
{"id": "C09", "title": "vector copy construction under a throwing element copy", "statement": "If an element copy throws while a vector is being copy constructed, unwinding releases everything constructed so far without undefined behaviour.", "quantifier": "every source vector and every throw point", "why_tests_cant": "every throw point of every state has to be considered", "anchors": ["include/cest/vector.hpp: vector(const vector&), ~vector"]}
{"id": "C10", "title": "vector equality is element-wise equality", "statement": "a == b is true iff they have the same length and equal elements at every index; reading never goes out of range.", "quantifier": "every pair of reachable vectors (including a vector with itself)", "why_tests_cant": "all lengths and values", "anchors": ["include/cest/vector.hpp: operator=="]}
{"id": "C11", "title": "deque behaves as a double-ended sequence under every history", "statement": "For every history of push_back, push_front, pop_back, pop_front (no-ops when empty) and clear, size, empty, front, back and operator[] agree with the mathematical sequence and nothing has undefined behaviour.", "quantifier": "every finite history, crossing any number of chunk boundaries in both directions", "why_tests_cant": "failures need particular patterns of crossing the 1024-element chunk boundary back and forth", "anchors": ["include/cest/deque.hpp: push_back_helper, push_front_helper, pop_back, pop_front, clear, front, back, operator[]"]}
{"id": "C12", "title": "deque is correct whenever pop_back/clear are not mixed with push_back", "statement": "Every history of push_back, push_front and pop_front, and every history of push_front, pop_front and pop_back, behaves exactly as the mathematical sequence, without undefined behaviour, including the index arithmetic that wraps around.", "quantifier": "every finite history of those operations", "why_tests_cant": "unbounded histories and chunk crossings", "anchors": ["include/cest/deque.hpp: push_back_helper, push_front_helper, pop_back, pop_front"]}
{"id": "C13", "title": "deque indexing is exact", "statement": "In every well-formed deque state, operator[](i) for i < size() designates the i-th element of the sequence, whatever the offset of the first element inside its chunk.", "quantifier": "every well-formed state, every offset, every index", "why_tests_cant": "division/modulo boundaries at every offset", "anchors": ["include/cest/deque.hpp: operator[]"]}
{"id": "C14", "title": "deque forward iteration visits every element once", "statement": "Iterating from begin() to end() visits the elements in order, each once, and stops.", "quantifier": "every deque state", "why_tests_cant": "fails only when the last element sits in the last slot of a chunk", "anchors": ["include/cest/deque.hpp: begin, end, iter::operator++"]}
{"id": "C15", "title": "deque iterator decrement undoes increment", "statement": "For every iterator to an element other than the last, --(++it) designates the same element.", "quantifier": "every deque and every iterator position", "why_tests_cant": "fails only at chunk boundaries", "anchors": ["include/cest/deque.hpp: iter::operator++, iter::operator--"]}
{"id": "C16", "title": "deque iterator difference is the index difference", "statement": "For iterators to elements i and j of the same deque, it_i - it_j == i - j.", "quantifier": "every deque and every pair of positions", "why_tests_cant": "fails only when the two positions are in different chunks", "anchors": ["include/cest/deque.hpp: operator-(const iter&, const iter&)"]}
{"id": "C17", "title": "deque element lifetimes and chunk storage are balanced", "statement": "In every history in which the deque stays well formed each element is destroyed exactly once, chunks are freed once with the allocated size, and nothing stays allocated after destruction.", "quantifier": "every such history", "why_tests_cant": "whole-history property", "anchors": ["include/cest/deque.hpp: ~deque, clear, push_*_helper, pop_*"]}
{"id": "C18", "title": "deque pop on empty and clear", "statement": "pop_back and pop_front on an empty deque change nothing; clear leaves an empty deque, destroys every element and keeps the chunks for reuse.", "quantifier": "every well-formed state", "why_tests_cant": "all states, all chunk layouts", "anchors": ["include/cest/deque.hpp: pop_back, pop_front, clear"]}
{"id": "C19", "title": "deque copy construction and assignment", "statement": "Copy construction yields an equal, independent deque; copy assignment makes the target equal to the source and leaves the source unchanged, also when both are the same object.", "quantifier": "every pair of deques including self-assignment", "why_tests_cant": "aliasing cases", "anchors": ["include/cest/deque.hpp: deque(const deque&), operator="]}
{"id": "C20", "title": "queue is FIFO for every history", "statement": "For every history of push, pop, front, back, size, empty on a cest::queue over cest::deque, elements leave in exactly the order they entered and no step has undefined behaviour.", "quantifier": "every finite history, any number of chunk crossings", "why_tests_cant": "unbounded histories", "anchors": ["include/cest/queue.hpp: queue", "include/cest/deque.hpp: push_back, pop_front"]}
{"id": "C21", "title": "list behaves as a sequence with stable iterators under every history", "statement": "For any program over any number of cest::list variables built from construction, copy, push/pop at both ends, insert and emplace before any valid iterator, erase at any valid iterator, clear and destruction, contents and size follow the mathematical sequence; insert returns an iterator to the new element and erase returns the iterator following the erased element.", "quantifier": "every finite history, every valid iterator", "why_tests_cant": "pointer surgery has to be right for every position in every shape", "anchors": ["include/cest/list.hpp: insert, emplace, erase, push_*, pop_*, clear, size"]}
{"id": "C22", "title": "list traversal is consistent in both directions", "statement": "In every reachable list, following ++ from begin() reaches end() after exactly size() steps and visits the sequence; following -- from end() visits the reverse; -- undoes ++.", "quantifier": "every reachable list, every iterator", "why_tests_cant": "all shapes", "anchors": ["include/cest/list.hpp: iter::operator++, iter::operator--, begin, end"]}
{"id": "C23", "title": "list nodes are allocated and released exactly once", "statement": "In every history no node is used after being freed, freed twice or leaked; after the lists are destroyed nothing remains allocated.", "quantifier": "every finite history", "why_tests_cant": "whole-history property", "anchors": ["include/cest/list.hpp: insert, erase, clear, ~list"]}
{"id": "C24", "title": "list operations do not invalidate other iterators", "statement": "insert, emplace, push and pop leave the address and value of every other element unchanged; erase invalidates only the erased position.", "quantifier": "every reachable list, every other element", "why_tests_cant": "all positions", "anchors": ["include/cest/list.hpp: insert, erase"]}
{"id": "C25", "title": "list copy construction and assignment", "statement": "Copies are equal and independent; assignment replaces the contents with those of the source and releases the old nodes, also for self-assignment.", "quantifier": "every pair of lists including self-assignment", "why_tests_cant": "aliasing", "anchors": ["include/cest/list.hpp: list(const list&), operator="]}
{"id": "C26", "title": "forward_list behaves as a sequence under every history", "statement": "For any program over forward_list variables built from construction, copy, assignment, swap, push_front, pop_front on non-empty, insert_after, erase_after (single and range), clear and destruction, the contents follow the mathematical sequence and returned iterators designate the documented positions.", "quantifier": "every finite history, every valid iterator including before_begin", "why_tests_cant": "unbounded histories and positions", "anchors": ["include/cest/forward_list.hpp: whole class"]}
{"id": "C27", "title": "forward_list nodes are allocated and released exactly once", "statement": "No history uses a freed node, frees twice or leaks; after destruction nothing remains allocated.", "quantifier": "every finite history", "why_tests_cant": "whole-history property", "anchors": ["include/cest/forward_list.hpp: erase_after, ~forward_list, operator="]}
{"id": "C28", "title": "forward_list assignment is safe, including self-assignment", "statement": "x = y makes x equal to y, leaves y unchanged and releases x's old nodes; x = x leaves x unchanged.", "quantifier": "every pair of forward_lists including self-assignment", "why_tests_cant": "aliasing", "anchors": ["include/cest/forward_list.hpp: operator=, swap, forward_list(const forward_list&)"]}
{"id": "C29", "title": "set insert/find implement a mathematical set for any strict weak order", "statement": "After any history of insertions, insert(x) returns (iterator to the unique element equivalent to x, added) where added is true iff no equivalent element was present; an equivalent insertion changes nothing; find(k) returns an iterator to the equivalent element or end(); size() is the number of inequivalent keys inserted.", "quantifier": "every strict weak ordering comparator, every insertion history, every key", "why_tests_cant": "rotations are exercised by unboundedly many tree shapes", "anchors": ["include/cest/set.hpp: insert, find, size, empty"]}
{"id": "C30", "title": "set iteration is strictly increasing and complete", "statement": "From begin(), ++ visits every element exactly once in strictly increasing order and then reaches end(), never dereferencing null.", "quantifier": "every comparator and insertion history", "why_tests_cant": "parent-pointer correctness after every rotation pattern", "anchors": ["include/cest/set.hpp: const_tree_iter::operator++, begin, rotate_left, rotate_right"]}
{"id": "C31", "title": "set stays balanced", "statement": "After every insertion history the tree is a red-black tree: root black, no red node with a red child, equal black height; hence depth <= 2*log2(size+1), so find and insert make at most 2*(that) comparisons.", "quantifier": "every comparator and insertion history", "why_tests_cant": "unbounded shapes", "anchors": ["include/cest/set.hpp: insert, rotate_left, rotate_right"]}
{"id": "C32", "title": "set insertion keeps existing iterators valid", "statement": "insert leaves every existing element at the same address with the same value, so iterators and references stay valid.", "quantifier": "every state, every inserted value", "why_tests_cant": "rotations move pointers, not elements, in every shape", "anchors": ["include/cest/set.hpp: insert, rotate_left, rotate_right"]}
{"id": "C33", "title": "set nodes are released exactly once", "statement": "clear and destruction release every node exactly once and nothing else; no leak and no use after free in any history.", "quantifier": "every history", "why_tests_cant": "whole-history property", "anchors": ["include/cest/set.hpp: clear, ~set, insert"]}
{"id": "C34", "title": "set copy construction and assignment", "statement": "A copy contains the same elements in the same order and is independent; assignment replaces the contents, also for self-assignment.", "quantifier": "every pair of sets including self-assignment", "why_tests_cant": "aliasing", "anchors": ["include/cest/set.hpp: set(const set&), operator="]}
{"id": "C35", "title": "map is a finite map in which the first insertion of a key wins", "statement": "After any insertion history, find(k) yields the value of the first inserted pair whose key is equivalent to k, or end() if none; a later insertion with an equivalent key returns false, the existing iterator, and changes nothing; size() counts distinct keys.", "quantifier": "every strict weak ordering, every history of pairs", "why_tests_cant": "unbounded shapes", "anchors": ["include/cest/map.hpp: insert, find, size"]}
{"id": "C36", "title": "map iteration is strictly increasing by key and complete", "statement": "From begin(), ++ visits every pair exactly once in increasing key order and reaches end().", "quantifier": "every comparator, every key type with ==, every history", "why_tests_cant": "the climb compares keys with == instead of node identity, which matters only for particular shapes and key types", "anchors": ["include/cest/map.hpp: tree_iter::operator++, const_tree_iter::operator++, begin"]}
{"id": "C37", "title": "map stays balanced and keeps references valid", "statement": "The map's tree is a red-black tree after every history with depth <= 2*log2(size+1), and insertion keeps every existing pair at its address.", "quantifier": "every comparator and history", "why_tests_cant": "unbounded shapes", "anchors": ["include/cest/map.hpp: insert, rotate_left, rotate_right"]}
{"id": "C38", "title": "map nodes are released exactly once; copies are equal and independent", "statement": "No leak, double free or use after free in any history; copy construction and (non-self) assignment give equal independent maps.", "quantifier": "every history, every pair of maps", "why_tests_cant": "whole-history property", "anchors": ["include/cest/map.hpp: clear, ~map, map(const map&), operator="]}
{"id": "C39", "title": "string is always NUL terminated within its storage", "statement": "In every history data()[size()] is CharT() and readable, size() <= capacity(), and capacity() >= 1 (except as noted for the input-iterator constructor).", "quantifier": "every history of string operations", "why_tests_cant": "every size/capacity relation", "anchors": ["include/cest/string.hpp: basic_string constructors, push_back, append, operator=, reserve, clear, pop_back"]}
{"id": "C40", "title": "string behaves as a character sequence under every history", "statement": "For histories of construction from (pointer,count) or C string, push_back, pop_back on non-empty, append, +=, assignment from C strings, reserve, clear and element assignment, the contents and all observers agree with the mathematical character sequence and nothing has undefined behaviour.", "quantifier": "every finite history and any number of strings", "why_tests_cant": "unbounded histories, growth boundaries", "anchors": ["include/cest/string.hpp: basic_string"]}
{"id": "C41", "title": "appending a string to itself doubles it", "statement": "s += s and s.append(s) yield s concatenated with itself, whether or not reallocation happens.", "quantifier": "every reachable string and capacity", "why_tests_cant": "source and destination alias only in particular capacity relations", "anchors": ["include/cest/string.hpp: append, operator+="]}
{"id": "C42", "title": "copying a string preserves its contents", "statement": "basic_string(str) and s = str give a string equal to str.", "quantifier": "every string value, including those containing CharT()", "why_tests_cant": "only strings with embedded NUL reveal the difference", "anchors": ["include/cest/string.hpp: basic_string(const basic_string&), operator="]}
{"id": "C43", "title": "string self-assignment leaves the string unchanged", "statement": "s = s leaves s unchanged without undefined behaviour.", "quantifier": "every reachable string", "why_tests_cant": "depends on size/capacity relation and overlap", "anchors": ["include/cest/string.hpp: operator=(const CharT*), operator=(const basic_string&)"]}
{"id": "C44", "title": "string find returns the first match", "statement": "find(s,pos,count) returns the least index i >= pos with data()[i..i+count) == s[0..count) and i+count <= size(), or npos if none; for count==0 it returns pos if pos <= size() else npos; it never reads outside either buffer.", "quantifier": "every haystack, needle, start position", "why_tests_cant": "overlapping partial matches at every position", "anchors": ["include/cest/string.hpp: find(const CharT*, size_type, size_type), find(const CharT*, size_type)"]}
{"id": "C45", "title": "string find(ch,pos) honours pos", "statement": "find(ch,pos) returns the least index >= pos holding ch, or npos.", "quantifier": "every string, character and pos", "why_tests_cant": "all positions", "anchors": ["include/cest/string.hpp: find(CharT, size_type)"]}
{"id": "C46", "title": "string comparison is the lexicographic total order", "statement": "sign(compare) is the lexicographic order of the contents, also when lengths differ by more than INT_MAX; == holds iff contents are equal; < is a strict total order; the C-string overloads agree.", "quantifier": "every pair of strings", "why_tests_cant": "all lengths; integer clamping only matters at lengths beyond INT_MAX", "anchors": ["include/cest/string.hpp: compare, _S_compare, operator==, operator!=, operator<"]}
{"id": "C47", "title": "string storage is balanced", "statement": "Every buffer is freed exactly once with the size it was allocated with; after destruction nothing remains allocated.", "quantifier": "every history", "why_tests_cant": "whole-history property", "anchors": ["include/cest/string.hpp: ~basic_string, reserve, append, operator="]}
{"id": "C48", "title": "string construction from input iterators", "statement": "basic_string(first,last) holds exactly the characters of the range.", "quantifier": "every input range, including the empty one", "why_tests_cant": "growth boundaries and the empty range", "anchors": ["include/cest/string.hpp: basic_string(InputIt, InputIt)"]}
{"id": "C49", "title": "string push_back accepts one of its own characters", "statement": "s.push_back(s[i]) appends a copy of character i.", "quantifier": "every reachable string and index, in particular when full", "why_tests_cant": "only reallocating calls reveal it", "anchors": ["include/cest/string.hpp: push_back, reserve"]}
{"id": "C50", "title": "nary::swap rotates left", "statement": "nary::swap(x1,...,xn) on distinct variables leaves xi holding the old x(i+1) and xn the old x1; nothing else changes; for n=0,1 it is the identity and for n=2 it is std::swap.", "quantifier": "every number of arguments and every values", "why_tests_cant": "all arities", "anchors": ["include/cest/swap.hpp: nary::swap"]}
{"id": "C51", "title": "nary::swapr is the inverse of nary::swap", "statement": "nary::swapr rotates right, and swap followed by swapr (and conversely) restores every variable.", "quantifier": "every number of arguments and values", "why_tests_cant": "all arities", "anchors": ["include/cest/swap.hpp: nary::swapr"]}
{"id": "C52", "title": "unique_ptr deletes each object exactly once", "statement": "For every history of construction from new objects, default construction, move construction, move assignment, reset, release and destruction over any number of unique_ptrs, each owned object is deleted exactly once, never used after deletion, and objects never released are deleted once all pointers are destroyed.", "quantifier": "every finite history", "why_tests_cant": "whole-history property", "anchors": ["include/cest/memory.hpp: unique_ptr"]}
{"id": "C53", "title": "unique_ptr transfer semantics", "statement": "Move construction empties the source; move assignment exchanges the two pointees; release returns the pointee and leaves null; reset(p) deletes the old pointee and stores p; bool conversion is true iff get() is non-null.", "quantifier": "every pair of unique_ptrs, including self-move", "why_tests_cant": "aliasing", "anchors": ["include/cest/memory.hpp: unique_ptr::operator=, release, reset"]}
{"id": "C54", "title": "shared_ptr reference counting", "statement": "For every history of construction from new objects, copy construction, aliasing construction and destruction in any order, use_count() equals the number of living owners, the deleter runs exactly once exactly when the last owner is destroyed, and the control block is freed then.", "quantifier": "every finite history, every destruction order", "why_tests_cant": "whole-history property", "anchors": ["include/cest/shared_ptr.hpp: shared_ptr_base"]}
{"id": "C55", "title": "copying an empty shared_ptr", "statement": "Copying a default-constructed or nullptr shared_ptr gives another empty shared_ptr with use_count() 0.", "quantifier": "every empty shared_ptr", "why_tests_cant": "not exercised by tests", "anchors": ["include/cest/shared_ptr.hpp: shared_ptr_base(const shared_ptr_base&)"]}
{"id": "C56", "title": "shared_ptr copy assignment", "statement": "a = b releases a's old object if a was its last owner and makes a share b's object.", "quantifier": "every pair of shared_ptrs", "why_tests_cant": "effects appear only at later destruction", "anchors": ["include/cest/shared_ptr.hpp: implicitly-declared operator="]}
{"id": "C57", "title": "function calls its target", "statement": "Calling a cest::function invokes the stored copy of the callable with the given arguments and returns its result; state of the stored callable persists from call to call and the original is not affected; the stored callable is destroyed exactly once.", "quantifier": "every callable, every call sequence", "why_tests_cant": "all call sequences", "anchors": ["include/cest/functional.hpp: function, impl_f"]}
{"id": "C58", "title": "istringstream delivers its contents character by character", "statement": "Successive get(c) calls yield exactly the characters of the string in order, then set eofbit and failbit and leave c unchanged; gcount is 1 on success and 0 on failure.", "quantifier": "every string content and every number of calls", "why_tests_cant": "all lengths, all positions", "anchors": ["include/cest/istream.hpp: get", "include/cest/streambuf.hpp: sbumpc, uflow, underflow", "include/cest/sstream.hpp: basic_istringstream"]}
{"id": "C59", "title": "read delivers consecutive blocks", "statement": "read(s,n) on a good stream stores min(n,remaining) consecutive characters, sets gcount to that number and sets eofbit|failbit iff it is less than n; any sequence of reads and gets delivers a prefix of the content in order; reading never leaves the buffer.", "quantifier": "every content, every sequence of block sizes", "why_tests_cant": "all block-size sequences", "anchors": ["include/cest/istream.hpp: read", "include/cest/streambuf.hpp: xsgetn"]}
{"id": "C60", "title": "unget undoes get", "statement": "After a successful get, unget followed by get delivers the same character again; unget at the beginning sets badbit and moves nothing; unget clears eofbit only.", "quantifier": "every content, position and state", "why_tests_cant": "all positions", "anchors": ["include/cest/istream.hpp: unget", "include/cest/streambuf.hpp: sungetc"]}
{"id": "C61", "title": "stream state bits are sticky and exact", "statement": "setstate only adds bits, clear(s) sets exactly s (plus badbit without a buffer), good/eof/fail/bool report exactly the bits; once fail or eof is set, get and read transfer nothing and report gcount 0 until clear.", "quantifier": "every state and every operation sequence", "why_tests_cant": "all combinations", "anchors": ["include/cest/basic_ios.hpp: clear, setstate, good, eof, fail", "include/cest/istream.hpp: sentry"]}
{"id": "C62", "title": "stream exception mask", "statement": "An operation throws ios_failure iff the resulting state intersects the exception mask; with the default mask nothing throws.", "quantifier": "every mask and state", "why_tests_cant": "all combinations", "anchors": ["include/cest/basic_ios.hpp: clear, exceptions"]}
{"id": "C63", "title": "istringstream::str(s) restarts reading from s", "statement": "After str(s) on a stream in good state, the stream delivers exactly the characters of s from the start.", "quantifier": "every previous position and every s", "why_tests_cant": "all contents (embedded NUL)", "anchors": ["include/cest/sstream.hpp: basic_stringbuf::str, _M_stringbuf_init, _M_sync"]}
{"id": "C64", "title": "fmemopen/fread/fclose deliver the buffer", "statement": "fread(buf,1,n,f) returns min(n,remaining) and stores those bytes; any sequence of fread calls concatenates to a prefix of the buffer, and to the whole buffer once a short count is returned; after that fread returns 0.", "quantifier": "every buffer (including NUL bytes) and every sequence of counts", "why_tests_cant": "all sequences of counts", "anchors": ["include/cest/cstdio.hpp: fmemopen, fread, fclose"]}
{"id": "C65", "title": "isalnum and isupper classify every int", "statement": "isalnum(ch) is non-zero (8) exactly for 0-9, A-Z, a-z and isupper(ch) is non-zero (256) exactly for A-Z, for every int including EOF and values outside char.", "quantifier": "every int", "why_tests_cant": "domain is all of int", "anchors": ["include/cest/cctype.hpp: isalnum, isupper"]}
{"id": "C66", "title": "floor and ceil", "statement": "For every finite double v whose floor/ceiling fits in int, floor(v) is the greatest integer <= v and ceil(v) the least integer >= v.", "quantifier": "every double in range", "why_tests_cant": "2^64 inputs; failures at isolated values", "anchors": ["include/cest/cmath.hpp: floor, ceil"]}
{"id": "C67", "title": "integer power", "statement": "pow(b,n) is b^n for every int n (n >= 0, and n < 0 with b != 0), up to rounding.", "quantifier": "every base and exponent", "why_tests_cant": "all exponents", "anchors": ["include/cest/cmath.hpp: pow"]}
{"id": "C68", "title": "sqrt terminates and is accurate", "statement": "For every x > 0 sqrt terminates and returns g > 0 with |g^2 - x| < 0.001*g^2 (exact arithmetic).", "quantifier": "every positive real", "why_tests_cant": "termination for all inputs", "anchors": ["include/cest/cmath.hpp: sqrt, sqrt_helper"]}
{"id": "C69", "title": "sqrt of zero and negative numbers", "statement": "sqrt(0) is 0 and sqrt of a negative number returns.", "quantifier": "x <= 0", "why_tests_cant": "non-termination cannot be observed by a test", "anchors": ["include/cest/cmath.hpp: sqrt_helper"]}
{"id": "C70", "title": "absolute value", "statement": "abs(x) >= 0, abs(x) is x or -x, abs(-x) == abs(x).", "quantifier": "every non-NaN double", "why_tests_cant": "all inputs", "anchors": ["include/cest/bits/abs.hpp: abs, fabs"]}
{"id": "C71", "title": "argument reduction of exp is exact", "statement": "The integer part and fraction used by exp satisfy nearest(x) + fraction(x) == x with |fraction(x)| < 1 (exact arithmetic), so exp(x) = e^n * exp_helper(r).", "quantifier": "every x whose truncation fits in int", "why_tests_cant": "all inputs", "anchors": ["include/cest/cmath.hpp: nearest, fraction, exp"]}
{"id": "C72", "title": "symmetries of the elementary functions", "statement": "atan and sinh are odd, cosh is even, atan2 selects the quadrant by the signs of its arguments.", "quantifier": "every argument", "why_tests_cant": "all inputs", "anchors": ["include/cest/cmath.hpp: atan, sinh, cosh, atan2"]}
{"id": "C73", "title": "decimal decomposition used by log", "statement": "For every x > 0 the mantissa/exponent decomposition terminates with 1 <= mantissa < 10 and x = mantissa * 10^exponent (exact arithmetic).", "quantifier": "every positive x", "why_tests_cant": "termination for all inputs", "anchors": ["include/cest/cmath.hpp: mantissa, exponent_helper, log"]}
{"id": "C74", "title": "complex arithmetic is the field of complex numbers", "statement": "Over any exact number type, +, -, *, / and the mixed scalar forms satisfy the ring/field laws, the compound assignments agree with the binary operators also when the operand is the object itself, and conj/norm satisfy norm(z*w)=norm(z)*norm(w) and z*conj(z)=norm(z).", "quantifier": "every commutative ring (field for /) and all values", "why_tests_cant": "algebraic laws over all values", "anchors": ["include/cest/complex.hpp: complex::operator+=,-=,*=,/=, operator+,-,*,/, norm, conj"]}
{"id": "C75", "title": "complex integer power", "statement": "pow(z,n) equals z multiplied n times for n >= 0 and its reciprocal for n < 0, for every int n including INT_MIN.", "quantifier": "every exact number type, z and n", "why_tests_cant": "all exponents", "anchors": ["include/cest/complex.hpp: __complex_pow_unsigned, pow(const complex&, int)"]}
{"id": "C76", "title": "complex comparison and construction", "statement": "== holds iff real and imaginary parts are equal, mixed comparison iff the imaginary part is zero; assignment from a scalar sets the imaginary part to zero; != is the negation of ==.", "quantifier": "all values", "why_tests_cant": "all values", "anchors": ["include/cest/complex.hpp: operator==, operator!=, operator="]}
{"id": "C77", "title": "forward_list copy construction that throws", "statement": "If an allocation or an element copy throws during forward_list copy construction, nothing else changes and all storage acquired so far is released.", "quantifier": "every source list, every throw point", "why_tests_cant": "fault injection at every allocation and copy of unboundedly long lists", "anchors": ["include/cest/forward_list.hpp: forward_list(const forward_list&)"]}
{"id": "C78", "title": "insertion that throws", "statement": "If the allocation or the element copy throws inside list::insert/emplace or forward_list::insert_after, all lists are unchanged and no storage is leaked.", "quantifier": "every list, position, throw point", "why_tests_cant": "fault injection at every point of every history", "anchors": ["include/cest/list.hpp: insert, emplace", "include/cest/forward_list.hpp: insert_after"]}
{"id": "C79", "title": "set insertion that throws", "statement": "If the allocation or the element copy throws inside set::insert (also when called by the copy constructor), the set can still be cleared and destroyed without undefined behaviour.", "quantifier": "every strict weak ordering, reachable state, value and throw point", "why_tests_cant": "fault injection at every point of every history", "anchors": ["include/cest/set.hpp: insert, clear, ~set, set(const set&)"]}
{"id": "C80", "title": "map self-assignment and throwing insertion", "statement": "Assignment of a map (also to itself) leaves it equal to the source; if the allocation or the copy of the pair throws inside map::insert, the map can still be cleared and destroyed.", "quantifier": "every map, source and throw point", "why_tests_cant": "aliasing and fault injection", "anchors": ["include/cest/map.hpp: operator=, insert, clear, ~map, map(const map&)"]}
{"id": "C81", "title": "string operations whose allocation fails", "statement": "If an allocation throws inside a string constructor, reserve, push_back, append or assignment, every string is unchanged (or at least destructible) and no storage is leaked.", "quantifier": "every reachable state, operation and throw point", "why_tests_cant": "fault injection at every allocation of every history", "anchors": ["include/cest/string.hpp: basic_string constructors, reserve, push_back, append, operator="]}
{"id": "C82", "title": "deque push whose element copy throws", "statement": "If copying the element throws inside push_back, the deque is unchanged and can be destroyed without undefined behaviour.", "quantifier": "every reachable state and value", "why_tests_cant": "fault injection at every state", "anchors": ["include/cest/deque.hpp: push_back, push_back_helper, ~deque"]}
{"id": "C83", "title": "deque push whose chunk allocation fails", "statement": "If the allocation of a new chunk throws inside push_back or push_front, the whole state is unchanged.", "quantifier": "every reachable state in which a chunk is needed", "why_tests_cant": "fault injection at every allocation of every history", "anchors": ["include/cest/deque.hpp: push_back_helper, push_front_helper"]}
{"id": "C84", "title": "deque push does not leak chunks", "statement": "If growing m_chunks throws inside push_back, the chunk allocated just before is released.", "quantifier": "every reachable state in which both allocations are needed", "why_tests_cant": "fault injection at the second allocation", "anchors": ["include/cest/deque.hpp: push_back_helper"]}
{"id": "C85", "title": "shared_ptr constructor owns or deletes", "statement": "If allocating the control block throws inside shared_ptr(Y*), the object handed over is deleted (as std::shared_ptr guarantees); otherwise the new pointer owns it with count 1.", "quantifier": "every state, every object", "why_tests_cant": "needs an allocation failure at a particular point", "anchors": ["include/cest/shared_ptr.hpp: shared_ptr_base(Y*)"]}
{"id": "C86", "title": "white-space skipping sentry accepts a good stream", "statement": "Constructing basic_istream::sentry(is) (white space is skipped) on a good stream whose next character is not white space succeeds: the sentry converts to true and the state stays good.", "quantifier": "every content and position", "why_tests_cant": "the repository's tests only use unformatted input, where the sentry is built with noskipws = true", "anchors": ["include/cest/istream.hpp: sentry::sentry", "include/cest/basic_ios.hpp: _M_ctype"]}
{"id": "C87", "title": "sin and cos are accurate", "statement": "In exact arithmetic sin(x) and cos(x) terminate for every x and differ from the sine and cosine by at most (|x|+4)/10^6 and (|x|+6)/10^6.", "quantifier": "every real x", "why_tests_cant": "an error bound on an infinite set of inputs; termination of the recursion", "anchors": ["include/cest/cmath.hpp: sin_helper, sin, cos"]}
{"id": "C88", "title": "sinh and cosh are accurate", "statement": "In exact arithmetic sinh(x) and cosh(x) terminate for every x, with errors at most 2*10^-6*|x|*cosh x and (5.1*10^-4 + 2*10^-6*|x|)*cosh x.", "quantifier": "every real x", "why_tests_cant": "an error bound on an infinite set of inputs", "anchors": ["include/cest/cmath.hpp: sinh_helper, sinh, cosh"]}
{"id": "C89", "title": "exp is accurate", "statement": "In exact arithmetic exp(x) has relative error at most 10^-4 for |x| <= 10^6.", "quantifier": "every real x with |x| <= 10^6", "why_tests_cant": "an error bound on an infinite set of inputs", "anchors": ["include/cest/cmath.hpp: exp_helper, nearest, fraction, exp"]}
{"id": "C90", "title": "log is accurate", "statement": "In exact arithmetic log(x) terminates for every x > 0 with error at most 0.0012 + 10^-8*|ln x|.", "quantifier": "every positive real x", "why_tests_cant": "an error bound on an infinite set of inputs; termination of the recursions", "anchors": ["include/cest/cmath.hpp: log_helper2, log_helper, log"]}
{"id": "C91", "title": "atan and atan2 are accurate", "statement": "In exact arithmetic atan(x) terminates for every x with error at most 1/20000, and atan2(y,x) is within 1/19000 of the polar angle in (-pi,pi] of the point (x,y) other than the origin.", "quantifier": "every real x and y", "why_tests_cant": "an error bound on an infinite set of inputs; case analysis over quadrants", "anchors": ["include/cest/cmath.hpp: atan_poly_helper, atan_identity, atan_cmplmntry, atan, atan2"]}
{"id": "C92", "title": "absolute value and argument of a complex number", "statement": "In exact arithmetic abs(z) terminates for every z (zero included) with relative error at most 5.1*10^-4 and arg(z) is within 1/19000 of the principal argument for z != 0.", "quantifier": "every complex z", "why_tests_cant": "an error bound on an infinite set of inputs; z = 0 must avoid the non-terminating sqrt(0)", "anchors": ["include/cest/complex.hpp: __complex_abs, __complex_arg"]}
{"id": "C93", "title": "complex exponential", "statement": "In exact arithmetic both components of exp(z) are within (2*|im z| + 200)/10^6 * e^(re z) of the true ones for |re z| <= 10^6.", "quantifier": "every complex z with |re z| <= 10^6", "why_tests_cant": "an error bound on an infinite set of inputs", "anchors": ["include/cest/complex.hpp: polar, __complex_exp"]}
{"id": "C94", "title": "output reaches the named stream, in order", "statement": "At run time cest::cout, cerr and clog pass every insertion and every printf/fprintf text to the standard stream of the same name, in program order and exactly once; other streams produce no output; during constant evaluation no output call has any effect.", "quantifier": "every sequence of insertions of int, unsigned, char, C string, string, endl and printf/fprintf calls on any streams", "why_tests_cant": "all interleavings of calls; absence of effects cannot be tested", "anchors": ["include/cest/ostream.hpp: operator<<, endl", "include/cest/runtime_ostream.hpp: runtime_ostream", "include/cest/iostream.hpp", "include/cest/cstdio.hpp: printf, fprintf"]}
{"id": "C95", "title": "base manipulators", "statement": "After os << hex (oct, dec) integers are printed in that base.", "quantifier": "every stream, base and integer", "why_tests_cant": "unbounded values; the tests never look at the text", "anchors": ["include/cest/ios_base.hpp: dec, hex, oct", "include/cest/ostream.hpp: operator<<(ios_base&(*)(ios_base&))"]}
{"id": "C96", "title": "a stream that is not good produces no output", "statement": "After setstate(failbit) or setstate(badbit) insertions produce no output until clear().", "quantifier": "every insertion and stream state", "why_tests_cant": "absence of output in every failed state", "anchors": ["include/cest/ostream.hpp: operator<<", "include/cest/runtime_ostream.hpp: runtime_ostream"]}
{"id": "C97", "title": "inserting a string prints all its characters", "statement": "os << str prints exactly the size() characters of str.", "quantifier": "every string", "why_tests_cant": "strings with embedded terminators", "anchors": ["include/cest/string.hpp: operator<<"]}
{"id": "C98", "title": "flush flushes", "statement": "After os.flush() everything written to os has been passed on by the underlying standard stream; endl writes a newline and flushes.", "quantifier": "every stream and state", "why_tests_cant": "buffering is invisible to a test that ends normally", "anchors": ["include/cest/ostream.hpp: flush, endl", "include/cest/streambuf.hpp: pubsync, sync"]}
{"id": "C99", "title": "printf prints what C's printf prints", "statement": "printf(format, args...) prints the text C's printf prints and returns its length, a negative number on failure; 0 in constant evaluation.", "quantifier": "every format string and argument list", "why_tests_cant": "unbounded formats", "anchors": ["include/cest/cstdio.hpp: printf"]}
{"id": "C100", "title": "fprintf prints, counts and cleans up", "statement": "fprintf(stream, format, args...) writes the text C's fprintf writes to the named stream, returns its length or a negative number on failure, and leaks nothing, also when the allocation of its buffer fails.", "quantifier": "every stream, format string and argument list", "why_tests_cant": "failure paths and leaks", "anchors": ["include/cest/cstdio.hpp: fprintf"]}
{"id": "C101", "title": "complex cos, sin, cosh, sinh", "statement": "In exact arithmetic cos(z), sin(z), cosh(z), sinh(z) terminate for every z = x+iy and both components are within (E + e + E*e)*cosh(h) of the true ones, where E = (|t|+6)/10^6, e = 51/10^5 + 2|h|/10^6, and t, h are the components entering the trigonometric and hyperbolic factors.", "quantifier": "every complex z", "why_tests_cant": "an error bound on an infinite set of inputs", "anchors": ["include/cest/complex.hpp: __complex_cos, __complex_cosh, __complex_sin, __complex_sinh"]}
{"id": "C102", "title": "complex logarithm", "statement": "In exact arithmetic log(z) terminates for every z != 0 on the principal branch, the real part within 0.002 + 10^-8*|ln|z|| and the imaginary part within 1/19000; log(0) is (-inf, 0).", "quantifier": "every complex z", "why_tests_cant": "an error bound on an infinite set of inputs; the branch", "anchors": ["include/cest/complex.hpp: __complex_log"]}
{"id": "C103", "title": "complex square root", "statement": "In exact arithmetic sqrt(z) terminates for every z and each component has relative error at most 1/1000 from the principal square root.", "quantifier": "every complex z", "why_tests_cant": "an error bound on an infinite set of inputs; the branch; z = 0", "anchors": ["include/cest/complex.hpp: __complex_sqrt"]}
{"id": "C104", "title": "decimal decomposition in binary64", "statement": "In binary64 arithmetic mantissa and exponent terminate for every positive double x and give a double m in [1,10) and an integer e, |e| <= 358, with |m*10^e - x| <= x/10^13.", "quantifier": "every positive finite double, subnormals included; every round-to-nearest mode", "why_tests_cant": "2^63 inputs; accumulated rounding of up to 358 operations", "anchors": ["include/cest/cmath.hpp: exponent_helper, exponent, mantissa"]}
{"id": "C105", "title": "sqrt in binary64", "statement": "In binary64 arithmetic sqrt terminates for every double x with 0 < x <= 2^960 and its relative error is at most 51/100000.", "quantifier": "every such double; every round-to-nearest mode", "why_tests_cant": "termination of a rounded Newton iteration; 2^63 inputs", "anchors": ["include/cest/cmath.hpp: sqrt_helper, sqrt"]}
{"id": "C106", "title": "sin and cos in binary64", "statement": "In binary64 arithmetic sin (|x| <= 420) and cos (|x| <= 400) terminate within 2*10^-6*(|x|+6) + 14*10^-8*(|x|+7)^2 of the true value.", "quantifier": "every double in the range; every round-to-nearest mode", "why_tests_cant": "error amplification through a recursion; infinitely many inputs", "anchors": ["include/cest/cmath.hpp: sin_helper, sin, cos"]}
{"id": "C107", "title": "log in binary64", "statement": "In binary64 arithmetic log terminates for every positive double within 12/10000 + 10^-8*|ln x| of the true value.", "quantifier": "every positive finite double; every round-to-nearest mode", "why_tests_cant": "2^63 inputs", "anchors": ["include/cest/cmath.hpp: log, log_helper, log_helper2"]}
{"id": "C108", "title": "exp in binary64", "statement": "In binary64 arithmetic exp has relative error at most 10^-4 for |x| <= 700.", "quantifier": "every double in the range; every round-to-nearest mode", "why_tests_cant": "accumulated rounding of up to 701 multiplications; infinitely many inputs", "anchors": ["include/cest/cmath.hpp: exp, exp_helper, nearest, fraction, pow"]}
{"id": "C109", "title": "shared_ptr with deleters", "statement": "Histories of shared_ptr constructions with the default deleter, a custom deleter (null pointer allowed) or an array, copies, use and destruction, in any order, are well defined, answer what an ownership specification says, call every deleter given exactly once with the pointer it was given for when the last owner goes, never twice for one object, and leave no storage behind but objects handed to deleters that do not delete.", "quantifier": "all histories; any deleter types and values, of which any may or may not delete", "why_tests_cant": "unbounded histories and sharing patterns", "anchors": ["include/cest/shared_ptr.hpp: shared_ptr_base, ctrl_derived, default_delete"]}
{"id": "C110", "title": "get_deleter finds the deleter", "statement": "get_deleter<D>(p) gives the deleter p (or the shared_ptr it was copied from) was constructed with if that has type D, and a null pointer otherwise, whatever the type of pointer given to the constructor.", "quantifier": "all histories, deleters, pointer types", "why_tests_cant": "depends on the history; the derived case is not in the tests", "anchors": ["include/cest/shared_ptr.hpp: get_deleter"]}
{"id": "C111", "title": "shared_ptr of a derived object", "statement": "shared_ptr<T>(new Y) destroys the object as a Y when the last owner goes, with or without a virtual destructor in T, as std::shared_ptr does.", "quantifier": "all histories and derived classes", "why_tests_cant": "undefined behaviour is not an observable failure", "anchors": ["include/cest/shared_ptr.hpp: shared_ptr_base(Y*), default_delete"]}
{"id": "C112", "title": "a deleter given is not lost", "statement": "Every deleter given to a constructor is called or held by exactly one living control block, also when allocating the control block throws (then the constructor calls it).", "quantifier": "all histories; allocation failure included", "why_tests_cant": "failed allocations are not tested", "anchors": ["include/cest/shared_ptr.hpp: shared_ptr_base(Y*, Deleter)"]}
{"id": "C113", "title": "shared_ptr to arrays", "statement": "An element written through operator[] of any owner of an array is read back through any other, other elements keep their values, indexes outside are undefined, and the last owner deletes the array with delete[].", "quantifier": "all histories, arrays, indexes, values", "why_tests_cant": "unbounded arrays and histories", "anchors": ["include/cest/shared_ptr.hpp: shared_ptr<T[]>::operator[], default_delete<T[]>"]}
{"id": "C114", "title": "default construction of a string cannot fail", "statement": "Default-constructing a string succeeds in every state, whatever the allocator does, and gives an empty terminated string without disturbing others (std::string's default constructor is noexcept and does not allocate).", "quantifier": "every reachable state, allocation failure at any point", "why_tests_cant": "failed allocations are not tested", "anchors": ["include/cest/string.hpp: basic_string()"]}
{"id": "C115", "title": "copying a function object", "statement": "function g(f) for a function variable f returns, and g behaves like f.", "quantifier": "every function variable, const or not, and every target", "why_tests_cant": "the copy from a non-const lvalue recurses without bound", "anchors": ["include/cest/functional.hpp: function(F&&), impl_f"]}
{"id": "C116", "title": "cin reads standard input", "statement": "Reading characters from cest::cin gives the characters of standard input.", "quantifier": "every input and every number of characters", "why_tests_cant": "tests redirect nothing into cin", "anchors": ["include/cest/iostream.hpp: cin", "include/cest/cstdio.hpp: stdin"]}
{"id": "C117", "title": "stream state as a bit mask", "statement": "The bit mask operators of ios_base act on every bit as union, intersection, symmetric difference and complement; the enumerators are distinct single bits and the fields are the right unions; a program that sets and examines state and exception mask sees sets of state bits, badbit whenever there is no buffer, and an exception exactly when state and mask meet; the format flags are skipws and dec.", "quantifier": "all programs of state functions; all 32-bit masks", "why_tests_cant": "all masks and unbounded programs", "anchors": ["include/cest/ios_base.hpp: operators, _Ios_Fmtflags, _Ios_Openmode, _Ios_Iostate, _M_init", "include/cest/basic_ios.hpp: clear, setstate, good, eof, fail, exceptions, init"]}
{"id": "C118", "title": "vector reverse iteration and push_back of an rvalue", "statement": "Iterating from rbegin() to rend() yields the elements in reverse order; push_back(std::move(y[i])) of another vector's element appends its value, leaves the moved-from value in y and changes no other vector; push_back of a temporary appends it.", "quantifier": "every reachable state, index and moved-from value", "why_tests_cant": "every capacity and contents", "anchors": ["include/cest/vector.hpp: rbegin, rend, push_back(value_type&&)"]}
{"id": "C119", "title": "complex<double> arithmetic in binary64: errors in the plane", "statement": "With every operation rounded to a nearest binary64 number, x + y and x - y are within 2^-53 of the true complex sum or difference, relative to its modulus, without any underflow term; x * y is within 5/2 * 2^-53 * |x y| + 2^-1073 and norm(x) within 2.1 * 2^-53 * |x|^2 + 2^-1073; x / y is within 6 * 2^-53 * |x / y| plus an underflow term whenever y is not zero and the quotient is representable; the compound assignments store the same values, also when both operands are the same variable; + and * are exactly commutative, x - x is 0, 0 and 1 are neutral and x / x is 1 when the computed norm is not 0.", "quantifier": "all pairs of binary64 complex numbers away from overflow, all roundings to nearest, all states and aliasings", "why_tests_cant": "There are 2^256 operand pairs, and the worst rounding errors occur at isolated operands; a test compares a few values with an oracle and does not see underflow of the norm at 2^-538.", "anchors": ["include/cest/complex.hpp:243-289", "include/cest/complex.hpp:293-390", "include/cest/complex.hpp:629-661"]}
{"id": "C120", "title": "Integer powers of complex<double> in binary64", "statement": "For every z and every int n for which z^n neither underflows nor overflows, pow(z, n) returns a value whose relative error is at most 4 n 2^-53 for n >= 0 and (5 |n| + 8) 2^-53 for n < 0, INT_MIN included; no variable of the caller changes.", "quantifier": "all binary64 complex numbers, all 2^32 exponents, all roundings to nearest", "why_tests_cant": "The error accumulates over up to 62 multiplications in an order that depends on the bits of the exponent; tests use small exponents.", "anchors": ["include/cest/complex.hpp:959-988"]}
{"id": "C121", "title": "sinh, cosh, atan and atan2 in binary64", "statement": "In binary64 arithmetic sinh (|x| <= 702) terminates within 4*10^-6*|x|*cosh x of the true value, cosh (|x| <= 331) with relative error at most 52/10^5 + 4*10^-6*|x|, atan of any finite argument within 1/20000, and atan2(y, x), away from the origin and from overflow of y/x, within 1/19000 of the angle.", "quantifier": "all finite arguments in the ranges, all roundings to nearest", "why_tests_cant": "There are 2^64 (atan2: 2^128) arguments; a test compares some of them with an oracle.", "anchors": ["include/cest/cmath.hpp: sinh_helper, sinh, cosh, atan_poly_helper, atan_poly, atan_identity, atan_cmplmntry, atan, atan2"]}
{"id": "C122", "title": "complex abs, arg, polar and exp in binary64", "statement": "In binary64 arithmetic abs(z) terminates with relative error at most 52/10^5 up to half of the smallest double, arg(z) is within 1/19000 of the angle, and polar(r, t) and exp(z) have components within (1.1*E + 10^-9)*|r| and (1.1*E + 11/10^5)*e^x of the true ones, where E = 2*10^-6*(|t|+6) + 14*10^-8*(|t|+7)^2.", "quantifier": "all binary64 complex numbers in the ranges, all roundings to nearest", "why_tests_cant": "The errors of five nested loops add up; a test compares a few values with an oracle.", "anchors": ["include/cest/complex.hpp: __complex_abs, __complex_arg, polar, __complex_exp"]}
{"id": "C123", "title": "complex cos, sin, cosh, sinh in binary64", "statement": "In binary64 arithmetic the components of cos(z), sin(z), cosh(z) and sinh(z) are within (1.1*E + 53/10^5 + 4*10^-6*|h|) * cosh(h) of the true ones, where E = 2*10^-6*(|t|+6) + 14*10^-8*(|t|+7)^2 and t, h are the components entering the trigonometric and hyperbolic factors.", "quantifier": "all binary64 complex numbers with |t| <= 400 and |h| <= 331, all roundings to nearest", "why_tests_cant": "The errors of five nested loops add up; a test compares a few values with an oracle.", "anchors": ["include/cest/complex.hpp: __complex_cos, __complex_cosh, __complex_sin, __complex_sinh"]}
{"id": "C124", "title": "complex log and sqrt in binary64", "statement": "In binary64 arithmetic log(z) terminates on the principal branch, the real part within 0.002 + 10^-8*|ln|z|| and the imaginary part within 1/19000; sqrt(z) terminates for every z, each component with relative error at most 1/1000 from the principal square root up to half of the smallest double.", "quantifier": "all binary64 complex numbers away from overflow and underflow, all roundings to nearest", "why_tests_cant": "There are 2^128 arguments, and zero is one of them.", "anchors": ["include/cest/complex.hpp: __complex_log, __complex_sqrt"]}
{"id": "C125", "title": "Recursion depth of the elementary functions", "statement": "In binary64 arithmetic the recursive helpers of sqrt, log, sinh, cosh and atan stay within the 512 nested calls that compilers allow in a constant expression: sqrt_helper at most 508 deep for every positive double, mantissa and exponent_helper (and log) at most 359 for every positive double, sinh at most 21 (|x| <= 702), cosh at most 508 (|x| <= 331), atan at most 4 for every argument.", "quantifier": "all doubles in the ranges, all roundings to nearest", "why_tests_cant": "The depth depends on the magnitude of the argument; a constexpr test checks the arguments it is compiled with, and the failing ones are the smallest and the largest numbers.", "anchors": ["include/cest/cmath.hpp:31-33", "include/cest/cmath.hpp:45-95", "include/cest/cmath.hpp:35-41"]}
{"id": "C126", "title": "Number of calls made by sin and sinh", "statement": "Evaluating sin(x) or sinh(x) makes a number of calls of the helper that is within the default limit of 2^25 operations of a constant expression; precisely, it is 2^(d+1) - 1 where d is the number of divisions by three that bring the argument below the tolerance.", "quantifier": "all doubles, all roundings to nearest", "why_tests_cant": "The cost of a call is not an output; a test would have to count, and for arguments beyond 10^9 it would not finish.", "anchors": ["include/cest/cmath.hpp:35-37", "include/cest/cmath.hpp:39-41", "include/cest/cmath.hpp:147-153"]}
{"id": "C127", "title": "Allocations and copies made by vector programs", "statement": "A vector program that respects the preconditions makes at most as many allocations, element copies and element assignments as the sum of the prices of its operations: 4 for a push_back whatever the size (amortised constant time), none for pop_back, clear, moves, swap and reading, linear in the sizes involved for the others. From a new vector n calls of push_back make at most 4n together; while the capacity suffices push_back makes one copy and allocates nothing.", "quantifier": "all programs over any number of vectors, all element values", "why_tests_cant": "The number of allocations is not an output, and the amortised bound is a statement about whole histories.", "anchors": ["include/cest/vector.hpp:37-224"]}
{"id": "C128", "title": "Allocations and copies made by list, forward_list, set and map programs", "statement": "A program over lists, forward lists, sets or maps makes at most one allocation and a fixed number of element copies (one for the lists, two for set and map) for each element it creates, plus one for each assignment through an iterator: finding, iterating, erasing, clearing, moving, splitting off and destroying create nothing, and inserting a key that is present allocates nothing.", "quantifier": "all programs over any number of containers, all element values and comparison results", "why_tests_cant": "The number of allocations is not an output; it is bounded here for whole histories.", "anchors": ["include/cest/list.hpp:138-291", "include/cest/forward_list.hpp:98-210", "include/cest/set.hpp:93-330", "include/cest/map.hpp:150-400"]}
{"id": "C129", "title": "Allocations and copies made by deque and queue programs", "statement": "A deque program that meets none of the faults of C11, C14 and C19, and every queue program, makes at most as many allocations, element copies and assignments as the sum of the prices of its operations: 3 for each push at either end whatever the size, none for pops, clear, destruction, element access and iteration, 3 per element for copying.", "quantifier": "all programs over any number of deques or queues, all chunk sizes from 2, all element values", "why_tests_cant": "The number of allocations is not an output, and a push allocates only when it crosses a chunk boundary.", "anchors": ["include/cest/deque.hpp:150-345", "include/cest/queue.hpp:20-45"]}
{"id": "C130", "title": "Storage held by a queue", "statement": "The storage held by a queue is bounded by a function of the largest number of elements it held.", "quantifier": "all queue programs, all chunk sizes from 2", "why_tests_cant": "The storage is not an output, and the growth shows only after many thousand operations.", "anchors": ["include/cest/deque.hpp:240-262", "include/cest/deque.hpp:326-345", "include/cest/queue.hpp:34-37"]}
{"id": "C131", "title": "Vector operations under exceptions", "statement": "When an element operation or an allocation throws inside assignment through operator[], reserve, resize, erase, copy assignment or the constructor from a size, nothing is leaked and every vector can still be destroyed; where the operation only overwrites elements, the contents are those of the finished part of the loop followed by the old elements.", "quantifier": "all reachable states, all element values, all positions of the exception", "why_tests_cant": "The exception has to be placed at each possible moment; element types of the tests never throw.", "anchors": ["include/cest/vector.hpp:55-63", "include/cest/vector.hpp:84-102", "include/cest/vector.hpp:108-122", "include/cest/vector.hpp:124-135", "include/cest/vector.hpp:178", "include/cest/vector.hpp:207-217"]}
{"id": "C132", "title": "References to deque elements", "statement": "A reference to an element of a deque stays valid and keeps referring to that element while elements are added and removed at both ends, until that element itself is removed.", "quantifier": "all sequences of push_back, push_front, pop_back and pop_front, all reachable states, all chunk sizes from 2, all elements", "why_tests_cant": "Holding a reference over every possible sequence of pushes, with reallocation of m_chunks in between, is not enumerable.", "anchors": ["include/cest/deque.hpp:201-251", "include/cest/deque.hpp:286-345"]}
{"id": "C133", "title": "How often a growing string reallocates", "statement": "Adding characters to a string one at a time, by push_back or by append, makes at most log2(final size) + 1 allocations.", "quantifier": "all reachable strings, all lists of characters to add", "why_tests_cant": "The number of allocations is not an output, and the bound speaks about arbitrarily long strings.", "anchors": ["include/cest/string.hpp:180-210", "include/cest/string.hpp:241-253"]}
{"id": "C134", "title": "Comparisons made by set and map, and comparators that throw", "statement": "find and insert in a set or map with n elements call the comparator at most 2*min(n, 2*log2(n+1)) times on the way down (insert of a new key once more); if a call of the comparator throws, the exception is passed on and the container is as it was before.", "quantifier": "all reachable states, all keys and values, all strict weak orders, all positions of the exception", "why_tests_cant": "The number of comparisons is not an output, and comparators of the tests never throw.", "anchors": ["include/cest/set.hpp:147-162", "include/cest/set.hpp:213-260", "include/cest/map.hpp:211-226", "include/cest/map.hpp:277-323"]}
{"id": "C135", "title": "For which doubles the elementary functions return", "statement": "sqrt, sin, cos, sinh, cosh, log, exp, atan, atan2 and abs(complex) return for every argument, NaN, the infinities and both zeros included.", "quantifier": "all values of double: NaN, infinities, zeros and all binary64 numbers, all roundings to nearest", "why_tests_cant": "A test that does not return is cut off by a timeout and says nothing about all the other arguments; 2^64 doubles cannot be tried.", "anchors": ["include/cest/cmath.hpp:17-262", "include/cest/complex.hpp:563-575"]}
{"id": "C136", "title": "Values of the elementary functions with overflow and special values", "statement": "Where the exact value lies in the range of double, the result of each elementary function of finite doubles is a finite double within the error bounds of C105-C108 and C121, no intermediate overflow spoils it, and NaN, infinities and zeros give what IEEE 754 says.", "quantifier": "all values of double, all roundings to nearest", "why_tests_cant": "An overflow of an intermediate result happens on a thin set of arguments; 2^64 doubles cannot be tried.", "anchors": ["include/cest/cmath.hpp:17-262", "include/cest/complex.hpp:563-575"]}
{"id": "C137", "title": "Inserting an element of the container itself", "statement": "Passing a reference to an element of any container of the same type, this one included, to insert, insert_after, push_front or push_back of list, forward_list, deque, set and map has the same effect as passing its value, whatever throws on the way; passing it as an rvalue inserts the value and leaves at most that element moved from.", "quantifier": "all reachable states, all elements, all positions, all moments at which an operation throws", "why_tests_cant": "Whether the argument is still intact when it is read depends on which allocation happens in between; the tests pass temporaries.", "anchors": ["include/cest/list.hpp:203-254", "include/cest/forward_list.hpp:139-153", "include/cest/forward_list.hpp:188-194", "include/cest/deque.hpp:201-223", "include/cest/set.hpp:213-260", "include/cest/map.hpp:277-323"]}
{"id": "C138", "title": "Programs with lists that catch exceptions", "statement": "In a program on any number of lists or forward_lists in which allocations and element copies throw at arbitrary moments and the exceptions are caught, nothing has undefined behaviour; an insertion, an assignment through an iterator or a copy construction that throws changes no list and invalidates no iterator, an assignment that throws leaves forward_list as it was and list with a prefix of the source; the only storage lost is one node for each element copy into a new node that threw, and for forward_list the nodes of copies that threw.", "quantifier": "all programs within the preconditions, all numbers of lists and iterators, all placements of any number of exceptions", "why_tests_cant": "Each exception leaves its own kind of debris for the operations that follow; the combinations cannot be enumerated, and the element types of the tests never throw.", "anchors": ["include/cest/list.hpp:139-291", "include/cest/forward_list.hpp:99-202"]}
{"id": "C139", "title": "Programs with sets and maps that run out of storage", "statement": "In a program on any number of sets or maps in which allocations fail at arbitrary moments and the exceptions are caught, nothing has undefined behaviour: an insertion that fails changes nothing, inserting a key that is present needs no storage, a copy construction that fails leaves no container, an assignment that fails leaves the smallest elements of the source that there was storage for, all iterators to remaining elements stay valid, and no node is lost.", "quantifier": "all programs within the preconditions, all numbers of containers and iterators, all placements of any number of failing allocations", "why_tests_cant": "Each failure leaves its own state for the operations that follow; the combinations cannot be enumerated, and allocations of the tests never fail.", "anchors": ["include/cest/set.hpp:93-330", "include/cest/map.hpp:150-400"]}
{"id": "C140", "title": "Capacities, and programs with strings that run out of storage", "statement": "The capacity of every string after every program is the one given by simple growth rules. An operation on a string throws exactly if it has to grow beyond the capacity and the allocation fails; except for default construction, assignment and a second allocation in the construction from a single-pass range, it then changes nothing, so that a program that catches the exception and goes on observes what the specification says, and every allocated block is the buffer of a string.", "quantifier": "all programs within the preconditions, all numbers of strings, all placements of any number of failing allocations", "why_tests_cant": "Allocations of the tests never fail, and the capacities depend on the whole history.", "anchors": ["include/cest/string.hpp:50-104", "include/cest/string.hpp:180-253"]}
{"id": "C141", "title": "Programs with vectors that catch exceptions, and their capacities", "statement": "In a program on any number of vectors in which allocations and element copies throw at arbitrary moments and the exceptions are caught, as long as none hits the construction of an element in the storage a vector keeps (except the first element added by resize), nothing has undefined behaviour: an operation that throws while moving the elements to larger storage changes nothing, an assignment or erasure that throws leaves the old size with a prefix of the new elements, a constructor that throws leaves no vector. Every capacity is the one given by the growth rules, and the storage lost is exactly a block per exception during a move of elements and the blocks of constructors that threw.", "quantifier": "all programs within the preconditions, all numbers of vectors, all placements of any number of exceptions", "why_tests_cant": "Each exception leaves its own debris and its own capacity for the operations that follow; the combinations cannot be enumerated, and the element types of the tests never throw.", "anchors": ["include/cest/vector.hpp:31-135", "include/cest/vector.hpp:160-222"]}
{"id": "C142", "title": "Programs with deques that catch exceptions, and their chunks", "statement": "In a program on any number of deques in which allocations and element copies throw at arbitrary moments and the exceptions are caught, as long as none hits the copy of an element in a push and the push_back after a removal at a chunk boundary (C11) and self-assignment (C19) are avoided, nothing has undefined behaviour: a push that cannot get storage changes no deque, an assignment that cannot get storage leaves the elements assigned until then, a constructor leaves no deque. The number of chunks and the room in the table of chunks follow from simple rules; exactly one chunk is lost whenever the table cannot grow, and nothing else.", "quantifier": "all programs within the preconditions, all chunk sizes of at least 2, all numbers of deques, all placements of any number of exceptions", "why_tests_cant": "Which push needs a chunk, and which a larger table, depends on the whole history; the element types and allocations of the tests never throw.", "anchors": ["include/cest/deque.hpp:155-283", "include/cest/deque.hpp:300-352"]}
{"id": "C143", "title": "Smart pointers and functions in programs that run out of storage", "statement": "In a program on any number of unique_ptrs, functions or shared_ptrs in which allocations fail at arbitrary moments and the exceptions are caught, nothing has undefined behaviour and the observations are as specified: an operation that throws changes no variable and no object. With unique_ptrs and functions every undeleted object still has exactly one holder, so nothing is lost. With shared_ptrs the objects lost are exactly those handed to a constructor whose control block could not be allocated (C85), no shared_ptr points to them, and all counts stay right.", "quantifier": "all programs within the preconditions (for shared_ptr without copies of empty pointers, C55, and without assignments between groups, C56), all numbers of variables, all placements of any number of failing allocations", "why_tests_cant": "Allocations of the tests never fail; who owns what after a failure depends on the whole history.", "anchors": ["include/cest/memory.hpp:31-139", "include/cest/functional.hpp:53-79", "include/cest/shared_ptr.hpp:46-108"]}
{"id": "C144", "title": "Order: the elementary functions are monotone where the functions they compute are", "statement": "In binary64, with any rounding to nearest, x <= y implies f(x) <= f(y) for pow with a fixed exponent (x, y >= 0; the order is reversed for negative exponents) and for sinh (x, y within 702). The same is claimed for sqrt, log, exp, sin, atan, cosh, floor and ceil on the intervals where the exact functions increase; for these it fails, with a witness for each, and holds for arguments far enough apart that the error bounds separate the results.", "quantifier": "all pairs of doubles in the ranges given, all roundings to nearest", "why_tests_cant": "A violation needs a pair of nearby arguments on the two sides of a branch or of a stopping test; tests compare single values with a tolerance.", "anchors": ["include/cest/cmath.hpp:22-60", "include/cest/cmath.hpp:108-165"]}
{"id": "C145", "title": "Ranges of the elementary functions, and exactness of square roots", "statement": "In binary64 |sin(x)| <= 1 and |cos(x)| <= 1 for every double x for which the functions return, however large (rounding to nearest, ties to even); sqrt(x) >= 1 for x >= 1, cosh(x) >= 1 for every x for which nothing overflows, and exp(x) > 0 for |x| <= 700, with any rounding to nearest. In exact arithmetic sqrt(x) is never below the root unless it is the first guess 1, and it is the root for x = 1 only; in binary64 sqrt(4) is above 2.0006.", "quantifier": "all doubles in the ranges given, all roundings to nearest (for sin and cos with ties to even), all recursion depths", "why_tests_cant": "The bound of sin is attained by doubles next to 1/2 only, where a single rounding in the wrong direction would exceed it; tests sample a few points.", "anchors": ["include/cest/cmath.hpp:22-60", "include/cest/cmath.hpp:108-165"]}
{"id": "C146", "title": "Streams of characters some of which look like the end of the file", "statement": "For every character type, also one with characters whose to_int_type is eof() (wchar_t(-1) is WEOF), every program on any number of streams, strings and arrays has no undefined behaviour and the observations specified: get stops at such a character as at the end of the file, skipping it, so an istringstream delivers through get only the characters before the first one; read delivers all of them; and unget reports a failure when it steps back over one, although it has moved. str(s) is described for strings with terminators. That get delivers the whole contents (C58) is refuted for such types.", "quantifier": "all character types, all programs within the preconditions, all contents", "why_tests_cant": "The tests use char, whose characters never look like the end of the file.", "anchors": ["include/cest/istream.hpp:155-215", "include/cest/streambuf.hpp:30-90"]}
{"id": "C147", "title": "Streams in programs that run out of storage", "statement": "In a program on any number of string streams, memory files, strings and arrays in which allocations fail at arbitrary moments and the exceptions are caught, nothing has undefined behaviour and the observations are as specified: a construction or fmemopen that fails at any of its allocations leaves everything as it was, str(s) allocates exactly if the buffer is too small, and no other operation allocates. In the end every allocated block is the buffer of one living string or stream, with the capacity specified; when all are gone, nothing is allocated. Two constructs are outside: a stream without a string terminates the program when its allocation fails, and after a failing str(s) destroying the stream is undefined.", "quantifier": "all character types, all programs within the preconditions, all placements of any number of failing allocations", "why_tests_cant": "Allocations of the tests never fail; what must be released depends on how far a constructor has come.", "anchors": ["include/cest/sstream.hpp:42-69", "include/cest/sstream.hpp:140-200", "include/cest/cstdio.hpp:69-91", "include/cest/string.hpp:50-60"]}
{"id": "C148", "title": "The cost of iterating over a set or map, and of clearing it", "statement": "In every reachable state a range-for over a set or map of n elements makes at most 2n - 1 and at least 2n - 2 log2(n+1) assignments to the iterator's node pointer altogether, and each increment at most 2 log2(n+1); clear() and the destructor recurse no deeper than 2 log2(n+1) + 1 calls. The postfix increment returns an iterator to the old element and leaves the iterator at the next element or at end().", "quantifier": "all programs over any number of sets and maps, all strict weak orders, all reachable states, all sizes", "why_tests_cant": "Linear iteration rests on an amortised argument over all shapes of red-black trees, and the recursion depth on the balance of every reachable tree; timing a few trees shows neither.", "anchors": ["include/cest/set.hpp:49-75", "include/cest/map.hpp:54-80", "include/cest/map.hpp:109-135", "include/cest/set.hpp:130-145", "include/cest/map.hpp:193-208"]}
{"id": "C149", "title": "Shared pointers with deleters in programs that run out of storage", "statement": "A program that uses shared_ptr with deleters, arrays and derived pointees and catches bad_alloc runs without undefined behaviour and answers as specified, whatever allocations fail. A failing constructor changes no variable, object or group. Once no shared_ptr is left, the deleters given to constructors that succeeded have been called exactly once each and the others never; what is left in memory is exactly the objects whose control block could not be allocated, one per such constructor, and objects handed to a deleter that does not delete.", "quantifier": "all programs, all deleter types and values, virtual destructor or not, all placements of any number of failing allocations", "why_tests_cant": "Allocations of the tests never fail, and which deleters still have to be called depends on the whole history of ownership and of failures.", "anchors": ["include/cest/shared_ptr.hpp:48-66", "include/cest/shared_ptr.hpp:75-97", "include/cest/shared_ptr.hpp:118-132"]}
{"id": "C150", "title": "Identities between the elementary functions in binary64", "statement": "In binary64 with any rounding to nearest: exp(log(x)) is x within 14 parts in ten thousand, log(exp(x)) is x within 0.0014, sqrt(x)*sqrt(x) and sqrt(x*x) are x and |x| within about one part in a thousand, exp(x)*exp(y) and exp(x+y) agree within 4 parts in ten thousand and exp(x)*exp(-x) is 1 within 3, sin(x)^2+cos(x)^2 is 1 within 3.1 times the error bound of cos, the computed cosh^2 is 1+sinh^2 of the computed sinh within 11 parts in ten thousand, and atan(x)+atan(1/x) is pi/2 within 0.0002.", "quantifier": "all doubles in the stated ranges (|log x| up to 699, exponents up to 700, sqrt from 2^-1000 to 2^960, |x| up to 400 for sin and cos, up to 331 for cosh, every x >= 2^-1023 for atan), all roundings to nearest", "why_tests_cant": "Errors of compositions depend on both arguments and on the rounding of every intermediate result; sampling cannot bound them over all doubles.", "anchors": ["include/cest/cmath.hpp:31-63", "include/cest/cmath.hpp:71-173"]}
{"id": "C151", "title": "The cost of searching and comparing strings", "statement": "find(s, pos, count) in a string of n characters for m >= 1 characters tests every position from pos up to the occurrence it returns (or, without one, up to the last position at which the needle fits) exactly once against the first character of the needle, and at the positions where that character is there compares the needle up to and including the first difference. Hence at most n + 1 - m - pos tests, at most m pairs per test, and at most m pairs for each character of the string equal to the first of the needle; the product is reached for every length (k times c followed by d, in n times c). compare looks at the characters up to and including the first difference; operator== for char looks at none when the lengths differ. The counted functions without their counters are the functions of C44 and C46.", "quantifier": "all reachable states, strings, needles (also inside the string), positions, lengths; traits whose order is total", "why_tests_cant": "tests measure a few inputs; the quadratic worst case and the exact count for every input are statements about all lengths", "anchors": ["include/cest/string.hpp:147-174", "include/cest/string.hpp:267-277", "include/cest/string.hpp:306-313"]}
{"id": "C152", "title": "Integer powers in binary64", "statement": "For a base b and an exponent n from 1 to 2^31 with |b|^n between 2^-1021 and 2^1022, pow(b, n) differs from b^n by at most 1.001 (n-1) 2^-53 |b|^n; for |b|^n between 2^-1021 and 2^1021, pow(b, -n) differs from b^-n by at most 1.002 n 2^-53 |b^-n|. Powers of integers below 2^53 and powers of powers of two (subnormal ones included) are exact. pow(b, m) * pow(b, n) and pow(b, m + n) differ by at most 2.01 (m + n) 2^-53 |b|^(m+n).", "quantifier": "all real bases and exponents in the stated ranges, every rounding to a nearest binary64 number", "why_tests_cant": "the number of bases and exponents; tests compare with another library's pow at a few points", "anchors": ["include/cest/cmath.hpp:136-141"]}
{"id": "C153", "title": "Identities between the complex functions in binary64", "statement": "In binary64 with any rounding to nearest: polar(abs(z), arg(z)) is z within 7 parts in ten thousand of |z|, abs(polar(r, t)) is r within 2.3 times the error bound of the sine and cosine of t plus 54 parts in a hundred thousand, exp(log(z)) is z within 24 parts in ten thousand, and the square of sqrt(z), and the product sqrt(z)*sqrt(z) that operator* computes, are z within 44 parts in ten thousand.", "quantifier": "all complex z with real and imaginary part in the stated ranges (2^-1000 to 2^1018 for the polar form, |log|z|| up to 690 for exp(log), 2^-1000 to 2^950 for sqrt; r from 2^-990 to 2^1019, |t| up to 400), all roundings to nearest; the quotient of the parts does not overflow where arg is involved", "why_tests_cant": "the two functions of each identity take different routes (series, Newton's method, quadrants of arg); sampling cannot bound the error of the composition over the plane", "anchors": ["include/cest/complex.hpp:562-621", "include/cest/complex.hpp:660-672", "include/cest/complex.hpp:738-765", "include/cest/complex.hpp: __complex_log, __complex_sqrt"]}
{"id": "C154", "title": "sin and cos of every double", "statement": "In binary64 with ties to even, sin(x) of every finite double is the exact sine of a number within 5.1e-7*x of x (within 5.1e-7*(|x|+4) for negative x), and cos(x) the exact cosine of a number within 5.2e-7*(|x|+6) of x. So the values differ from the sine and cosine of x by at most that, and nothing overflows.", "quantifier": "all finite doubles including subnormal ones and minus zero, every rounding to nearest with ties to even", "why_tests_cant": "the recursion is up to 660 levels deep and every level triples the error of the one below; tests look at a few small arguments", "anchors": ["include/cest/cmath.hpp:31-37", "include/cest/cmath.hpp:124-126", "include/cest/cmath.hpp:147-149"]}
{"id": "C155", "title": "Complex products and quotients over all finite doubles, with overflow", "statement": "With overflow and underflow in the model: a product of finite complex numbers with |z||w| <= 2^1019 has finite parts and the error bound of C119, and a part of a product of finite numbers is NaN exactly when the two real products in it overflow and cancel. A quotient of finite numbers whose divisor is not zero is accurate, and w/w is 1.", "quantifier": "all complex numbers with finite parts (both zeros and subnormal numbers included), every rounding to a nearest binary64 number", "why_tests_cant": "overflow in an intermediate result depends on both operands; the sets of operands where the quotient is wrong have 2^126 elements and none is near 1", "anchors": ["include/cest/complex.hpp:266-289", "include/cest/complex.hpp:353-360", "include/cest/complex.hpp:383-390", "include/cest/complex.hpp:629-661"]}
{"id": "C156", "title": "Complex arithmetic with infinities, NaN and zeros", "statement": "Sum and product are commutative on all values. NaN in a part of an operand makes both parts of a product or quotient NaN. As in C11, annex G: the product of an infinity and a finite nonzero number is infinite, the quotient of a finite number and an infinity is zero, and the quotient of a nonzero number and zero is infinite.", "quantifier": "all values of complex<double>: parts finite, infinite, NaN or a zero with either sign", "why_tests_cant": "the special values multiply to many combinations of signs and kinds, and the tests use none", "anchors": ["include/cest/complex.hpp:223-230", "include/cest/complex.hpp:243-289", "include/cest/complex.hpp:392-399"]}
{"id": "C157", "title": "Which arguments the complex functions return for, over all doubles", "statement": "arg, polar, exp, cos, sin, cosh, sinh, log and sqrt of a complex number return a value for every argument, the special values of binary64 included.", "quantifier": "all pairs of values of type double (finite, subnormal, zeros with either sign, infinities, NaN), every rounding to a nearest binary64 number", "why_tests_cant": "a call that never returns cannot be observed by a test, only suspected; the arguments concerned are huge, infinite or NaN, which no test uses", "anchors": ["include/cest/complex.hpp:562-621", "include/cest/complex.hpp:660-765", "include/cest/cmath.hpp:31-149"]}
{"id": "C158", "title": "Values of the complex functions over all finite doubles", "statement": "With overflow in the model and ties rounded to even: whenever cos, sin, cosh or sinh of a complex number returns, both parts are finite and within (5.2e-7*(|angle|+6) + 5.3e-4 + 5e-6*|h|)*cosh(h) of the true parts, where h is the hyperbolic part of the argument; polar(r, t) is within (5.2e-7*(|t|+6)+1e-15)*|r| of r*e^(it) for all finite r and t; exp(z) is accurate in the same way; log of a nonzero number is accurate to 0.003 and a relative 1e-8 in the real part and 1/19000 in the imaginary part, subnormal numbers included; sqrt is within 1/1000 of the principal root in each part (each bound up to half of the smallest double).", "quantifier": "all pairs of finite doubles for which the call returns (exactly those of C157), subnormal numbers and both zeros included; exp for real parts in (-2^31, 2^31)", "why_tests_cant": "the range is the whole of the plane; C122, C123 and C124 cover angles up to 400 only; the intermediate results overflow for arguments no test uses", "anchors": ["include/cest/complex.hpp:562-621", "include/cest/complex.hpp:660-834"]}
{"id": "C159", "title": "Storage returns to the allocator it came from", "statement": "With allocators that are not all equal: every deallocate call of vector, string, list, forward_list, set, map and deque passes a pointer that an equal allocator returned for the same number of elements and that has not been deallocated before, and when all variables are destroyed no block is left.", "quantifier": "all programs (any number of variables, copies, moves, swaps, assignments and member calls), all allocator types and all sequences of default-constructed allocators, all allocators passed to constructors", "why_tests_cant": "the tests use std::allocator only, whose objects are all equal and which ignores null pointers; with it a block freed by the wrong allocator object cannot be noticed", "anchors": ["include/cest/vector.hpp:31-135", "include/cest/string.hpp:37-106", "include/cest/string.hpp:180-253", "include/cest/forward_list.hpp:99-186", "include/cest/list.hpp:139-291", "include/cest/set.hpp:100-145", "include/cest/map.hpp:160-208", "include/cest/deque.hpp:153-199", "include/cest/deque.hpp:301-345"]}
{"id": "C160", "title": "Containers use the allocator they are given", "statement": "A constructor with an allocator argument makes the container keep that allocator and take its storage from it; copy construction takes the allocator of the source; assignment keeps the allocator of the target.", "quantifier": "all allocator values, all sizes and initial contents, all heaps", "why_tests_cant": "the tests pass no allocator to any constructor", "anchors": ["include/cest/vector.hpp:42-70", "include/cest/vector.hpp:84-102", "include/cest/string.hpp:40-65", "include/cest/string.hpp:219-239", "include/cest/deque.hpp:163-173", "include/cest/list.hpp:142-146", "include/cest/forward_list.hpp:100-110"]}
{"id": "C161", "title": "Storage when requests fail", "statement": "Any requests for storage may fail, and the program catches every std::bad_alloc and goes on using its variables: still every deallocate call of vector, string, list, forward_list, set, map and deque passes a pointer that an equal allocator returned for that number of elements and that is live, no exception ends the program, and when all variables are destroyed no block is left.", "quantifier": "all programs, all allocator types, all sequences of default-constructed allocators and all sets of failing requests", "why_tests_cant": "the tests never run out of storage, and a failing request must be placed at each of unboundedly many positions of each program", "anchors": ["include/cest/vector.hpp:31-135", "include/cest/vector.hpp:187-205", "include/cest/string.hpp:37-104", "include/cest/string.hpp:180-253", "include/cest/forward_list.hpp:100-153", "include/cest/list.hpp:142-254", "include/cest/set.hpp:102-106", "include/cest/map.hpp:163-167", "include/cest/deque.hpp:163-173", "include/cest/deque.hpp:301-345"]}
{"id": "C162", "title": "nary::swap with moves and repeated arguments", "statement": "nary::swap(x1,...,xn) permutes the values of the objects named, whichever of the arguments name the same object: no value is lost or doubled and no object is left moved-from, even if a move assignment of an object to itself destroys its value; nary::swapr with the same arguments undoes it and conversely; objects not named do not change; for distinct objects they are the rotations of C50 and C51.", "quantifier": "every number of arguments, every pattern of repetitions, all values, moved-from objects included", "why_tests_cant": "the patterns of repetitions are the partitions of any number of arguments; the tests use distinct integers, for which a move is a copy", "anchors": ["include/cest/swap.hpp:14-32", "include/cest/swap.hpp:34-53"]}
{"id": "C163", "title": "queue over list", "statement": "For every program of construction, copying, assignment, push, pop, front, back, size, empty and destruction on queues with cest::list as their container, elements leave in exactly the order they entered, no step has undefined behaviour, and the number of allocated nodes is always the number of elements in the queues; pop, front and back of an empty queue are undefined.", "quantifier": "all programs over any number of queues, all element values", "why_tests_cant": "histories are unbounded; no test uses a queue over another container than deque", "anchors": ["include/cest/queue.hpp:22-36", "include/cest/list.hpp:139-181", "include/cest/list.hpp:202-291"]}
{"id": "C164", "title": "queue over list: cost and exceptions", "statement": "A program over queues with cest::list as their container makes at most two allocations and element copies for each push and for each element of a queue that is copied, and none for anything else. When any allocation or element copy of any operation throws, and the program catches the exception and goes on, nothing is undefined; a push that throws changes nothing, a copy construction that throws leaves no queue, an assignment that throws leaves a prefix of the source; and the nodes allocated are one for every element in the queues and one for every exception thrown by the copy of an element into its node.", "quantifier": "all programs over any number of queues, all element values, all placements of any number of exceptions", "why_tests_cant": "programs and the places of exceptions in them are unbounded; the tests have no throwing element type", "anchors": ["include/cest/queue.hpp:22-36", "include/cest/list.hpp:139-181", "include/cest/list.hpp:202-291"]}
{"id": "C165", "title": "queue over deque: exceptions", "statement": "When any allocation of any operation on queues over cest::deque throws, and the program catches the exception and goes on, nothing is undefined, elements leave in the order they entered, a push that throws changes no queue and a construction that throws leaves no queue; the chunks of a queue end less than one chunk behind its last element; the allocated chunks are those of the queues and lost ones, at most one lost for each exception.", "quantifier": "all programs over any number of queues, x.push(y.front()) and x.push(x.front()) included, all element values, all chunk sizes of at least two, all placements of any number of failing allocations", "why_tests_cant": "programs and the places of exceptions in them are unbounded; the tests never run out of storage", "anchors": ["include/cest/queue.hpp:22-36", "include/cest/deque.hpp:153-199", "include/cest/deque.hpp:301-345"]}
