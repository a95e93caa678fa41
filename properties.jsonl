{"id": "C01", "title": "Integer floor division and modulo obey the division law", "statement": "For integers m and n with n ~= 0, the results of m // n and m % n satisfy m == (m // n) * n + (m % n) in 64-bit wrap-around arithmetic, m // n is the mathematical floor of m/n (except minint // -1, which wraps to minint), m % n is 0 or has the sign of n, and |m % n| < |n|. Division or modulo by integer 0 raises an error and no input reaches undefined behaviour of the C operators.", "quantifier": "all pairs of 64-bit integers (2^128 inputs)", "why_tests_cant": "sampling pairs cannot cover the sign/rounding/overflow corners for all 2^128 inputs", "anchors": ["src/lvm.c:luaV_idiv", "src/lvm.c:luaV_mod", "src/lobject.c:intarith"]}
{"id": "C02", "title": "Shifts behave as logical shifts for every displacement", "statement": "x << y and x >> y give, for every 64-bit x and every 64-bit y, the logical shift of x by y bits (vacated bits zero); a negative displacement shifts the other way; a displacement of absolute value >= 64 gives 0; no C-level undefined shift is executed.", "quantifier": "all pairs of 64-bit integers", "why_tests_cant": "the displacement ranges over 2^64 values including minint, whose negation overflows", "anchors": ["src/lvm.c:luaV_shiftl", "src/lobject.c:intarith"]}
{"id": "C03", "title": "Integer arithmetic is arithmetic modulo 2^64", "statement": "+, -, *, unary minus, &, |, ~ (xor and not) on integers are total and agree with the corresponding operation modulo 2^64 (respectively bit by bit) on the two's-complement representation.", "quantifier": "all integer operands and all operators of lua_arith/constant folding", "why_tests_cant": "infinite family of operand combinations; wrap-around only shows at extremes", "anchors": ["src/lobject.c:intarith", "src/lobject.c:luaO_rawarith", "src/llimits.h:intop"]}
{"id": "C04", "title": "Size hints encoded as a floating byte never under-allocate", "statement": "The size hint the compiler stores in a NEWTABLE instruction for x elements decodes to a value y with x <= y, y <= x + x/8 (rounding error at most one eighth), the encoding is monotone in x, encodable values decode back exactly, and decoded bytes re-encode to themselves.", "quantifier": "all sizes representable in 32 bits and all 8-bit encodings", "why_tests_cant": "needs every size up to 2^31", "anchors": ["src/lobject.c:luaO_int2fb", "src/lobject.c:luaO_fb2int"]}
{"id": "C05", "title": "ceil(log2 x) is computed exactly", "statement": "For every 32-bit x >= 1, the function used to size hash parts and array slices returns the least k with x <= 2^k.", "quantifier": "all x with 1 <= x < 2^32", "why_tests_cant": "256-entry lookup table plus shifting loop; tests sample it", "anchors": ["src/lobject.c:luaO_ceillog2"]}
{"id": "C06", "title": "Integer/float comparisons are mathematically exact", "statement": "For every 64-bit integer i and every IEEE double f, i < f, i <= f, f < i, f <= i and i == f are true exactly when the relation holds between the exact mathematical values; with f = NaN every one of them is false; infinities compare beyond every integer. As a consequence < and <= are transitive on non-NaN numbers.", "quantifier": "all int64 x all doubles (2^128 pairs)", "why_tests_cant": "rounding errors only appear beyond 2^53; exhaustive testing is impossible", "anchors": ["src/lvm.c:LTnum", "src/lvm.c:LEnum", "src/lvm.c:LTintfloat", "src/lvm.c:LEintfloat", "src/lvm.c:LTfloatint", "src/lvm.c:LEfloatint", "src/lvm.c:luaV_equalobj"]}
{"id": "C07", "title": "Float to integer conversion is exact or rejected", "statement": "Converting a float to an integer (exact mode) succeeds iff the float is finite, integral and within [minint, maxint], and then yields the same value; floor/ceil modes return floor/ceil of the float iff that is in range. No out-of-range C cast (undefined behaviour) is ever executed.", "quantifier": "all doubles and all three modes", "why_tests_cant": "2^64 doubles, NaN, infinities and the 2^63 boundary", "anchors": ["src/lvm.c:luaV_flttointeger", "src/lvm.c:luaV_tointeger_", "include/luaconf.h:lua_numbertointeger"]}
{"id": "C08", "title": "Numeric for loops run over exactly the documented sequence", "statement": "An integer for loop `for i = a, b, s` (s ~= 0) whose control variable does not overflow executes its body exactly for a, a+s, a+2s, ... while <= b (s>0) or >= b (s<0), in that order, and then terminates; a float limit behaves as its floor/ceiling clipped to the integer range; NaN limit gives no iterations. Where the next value would overflow, the behaviour of the code is stated separately.", "quantifier": "all int64 a, b, s and float limits", "why_tests_cant": "the number of iterations is unbounded and limits range over all doubles", "anchors": ["src/lvm.c:luaV_forlimit", "src/lvm.c:luaV_execute(OP_FORPREP,OP_FORLOOP)"]}
{"id": "C09", "title": "A table behaves as a finite map over any history", "statement": "After any sequence of raw assignments t[k]=v (including to nil) starting from an empty table, raw reading t[k] returns the value of the last assignment to a key raw-equal to k, or nil if there is none: hash collisions, chain moves, rehashes, growth and shrinking of array and hash parts are invisible.", "quantifier": "all finite histories of assignments, all keys, all hash functions, all table sizes", "why_tests_cant": "needs every interleaving of inserts, deletes and rehashes and every collision pattern", "anchors": ["src/ltable.c:luaH_get", "src/ltable.c:luaH_newkey", "src/ltable.c:luaH_set", "src/ltable.c:luaH_setint", "src/ltable.c:rehash", "src/ltable.c:luaH_resize"]}
{"id": "C10", "title": "Table lookups and inserts always terminate and stay in bounds", "statement": "In every reachable table state every collision chain is finite and acyclic, so every lookup terminates, and every index computed by lookup/insert/free-slot search is inside the node vector or array part.", "quantifier": "all reachable table states", "why_tests_cant": "an inductive invariant over unbounded histories", "anchors": ["src/ltable.c:getgeneric", "src/ltable.c:luaH_newkey", "src/ltable.c:getfreepos"]}
{"id": "C11", "title": "Traversal with next visits every entry exactly once", "statement": "Starting from nil and repeatedly calling next on a table that receives no new keys visits each key with a non-nil value exactly once and then stops; assigning to existing fields (including clearing them) during the traversal neither repeats nor skips other keys nor raises an error.", "quantifier": "all reachable table states and all interleaved assignments to existing keys", "why_tests_cant": "unbounded tables and adversarial interleavings", "anchors": ["src/ltable.c:luaH_next", "src/ltable.c:findindex"]}
{"id": "C12", "title": "The length of a table is a border", "statement": "#t (no metamethod) returns a j >= 0 with (j == 0 or t[j] ~= nil) and t[j+1] == nil; it terminates.", "quantifier": "all reachable table states", "why_tests_cant": "binary search over unbounded array and hash parts with holes", "anchors": ["src/ltable.c:luaH_getn", "src/ltable.c:unbound_search"]}
{"id": "C13", "title": "Array part sizing keeps more than half of the slots used", "statement": "When a table is rehashed the chosen array size n is 0 or a power of two such that more than n/2 of the slots 1..n will be in use, no larger power of two has that property, and the reported number of keys going to the array part is exactly the number of integer keys in 1..n.", "quantifier": "all multisets of integer keys", "why_tests_cant": "all distributions of keys in unbounded tables", "anchors": ["src/ltable.c:computesizes", "src/ltable.c:rehash", "src/ltable.c:countint"]}
{"id": "C14", "title": "Typed arrays never access memory outside their data", "statement": "No sequence of creations, reads, writes, slices, traversals and frees of integer[]/number[] arrays ever reads or writes memory outside an array's allocated data, a freed block, or an uninitialised element. A store inside the array succeeds and keeps the length, exactly one past the end it appends or is refused, elsewhere it raises an out-of-bounds error; a load after a store at the same index returns the stored value.", "quantifier": "all arrays, all histories of operations, all 64-bit indexes", "why_tests_cant": "all interleavings of growth and access; index truncation corners", "anchors": ["src/ltable.c:raviH_set_int", "src/ltable.c:raviH_set_float", "src/ltable.h:raviH_get_int_inline", "src/ltable.h:raviH_set_int_inline", "src/ltable.c:ravi_resize_array"]}
{"id": "C15", "title": "Typed arrays refine a growable sequence", "statement": "After any sequence of successful stores an integer[]/number[] has exactly the elements stored last at each index; growing preserves all elements; #a equals initial length plus the number of appends; stores never change the length except by appending one element at #a+1.", "quantifier": "all operation histories", "why_tests_cant": "unbounded histories", "anchors": ["src/ltable.c:raviH_set_int", "src/ltable.c:ravi_resize_array", "src/ltable.h:raviH_getn"]}
{"id": "C16", "title": "Slices alias their parent and stay inside it", "statement": "A slice created by table.slice(a, start, len) succeeds only for 1 <= start, len >= 1 (as unsigned) and start+len-1 <= #a; afterwards slice[i] and a[start+i-1] are the same element for 1 <= i <= len under any sequence of stores through either, a slice never grows, and the parent's storage is never reallocated or freed while a slice exists.", "quantifier": "all arrays, slice bounds (including overflowing 32-bit sums) and operation histories", "why_tests_cant": "aliasing plus reallocation over unbounded histories", "anchors": ["src/lapi.c:ravi_create_slice", "src/ltable.c:raviH_new_slice", "src/ltable.c:ravi_resize_array"]}
{"id": "C17", "title": "Fixed-length arrays keep their length", "statement": "An array created by table.intarray(n)/table.numarray(n) keeps #a == n for its whole life: storing at #a+1 raises an error (documented: such arrays are fixed length).", "quantifier": "all n and all histories", "why_tests_cant": "claims about all sizes; small arrays are over-allocated", "anchors": ["src/ltable.c:raviH_new_integer_array", "src/ltable.c:raviH_set_int"]}
{"id": "C18", "title": "Equal short strings are the same object", "statement": "For any history of string creation, garbage collection of strings and string-table resizing, creating a string of at most 40 bytes returns an existing live object iff one with the same bytes exists, and two live short strings have the same bytes iff they are the same object.", "quantifier": "all histories, all byte strings, all hash seeds", "why_tests_cant": "needs all collision patterns and resize timings", "anchors": ["src/lstring.c:internshrstr", "src/lstring.c:luaS_resize", "src/lstring.c:luaS_remove"]}
{"id": "C19", "title": "String comparison is a total order on byte strings", "statement": "s < t / s <= t on strings (C locale) is lexicographic byte order, including strings with embedded zero bytes and prefixes; exactly one of s<t, s==t, t<s holds and the order is transitive.", "quantifier": "all pairs/triples of byte strings", "why_tests_cant": "unbounded strings with embedded zeros are compared chunk by chunk", "anchors": ["src/lvm.c:l_strcmp"]}
{"id": "C20", "title": "Integers survive tostring/tonumber", "statement": "For every integer i, converting i to its decimal string and back yields the integer i; a decimal numeral is converted to an integer iff its value fits in 64 bits (otherwise it is left to the float converter); hexadecimal numerals wrap modulo 2^64; surrounding whitespace is ignored and trailing garbage rejected.", "quantifier": "all 64-bit integers, all numeral strings", "why_tests_cant": "2^64 integers and unbounded numerals", "anchors": ["src/lobject.c:l_str2int", "src/lobject.c:tostringbuff"]}
{"id": "C21", "title": "UTF-8 encoding and decoding are inverse", "statement": "For every code point x < 2^31, utf8.char(x) is the shortest encoding with 1..6 bytes and decoding it (lax) returns x and consumes exactly the encoding; strict decoding succeeds iff x <= 0x10FFFF and x is not a surrogate; decoding never reads past the string's terminating zero and every successful decode re-encodes to the bytes consumed (no overlong form is accepted).", "quantifier": "all code points and all byte strings", "why_tests_cant": "2^31 code points, unbounded byte strings", "anchors": ["src/lobject.c:luaO_utf8esc", "src/lutf8lib.c:utf8_decode", "src/lutf8lib.c:utfchar"]}
{"id": "C22", "title": "Substring extraction matches the index rules", "statement": "string.sub(s,i,j) and string.byte(s,i,j) return exactly the bytes at positions max(1,i')..min(#s,j') where negative indices count from the end; no byte outside s is read, for all 64-bit i, j.", "quantifier": "all strings and all 64-bit i, j", "why_tests_cant": "index normalisation with minint/maxint corners", "anchors": ["src/lstrlib.c:str_sub", "src/lstrlib.c:str_byte", "src/lstrlib.c:posrelatI", "src/lstrlib.c:getendpos"]}
{"id": "C23", "title": "string.rep builds exactly the repeated string or fails", "statement": "string.rep(s,n,sep) returns n copies of s separated by sep, or an error if the size might overflow; whenever it proceeds the size computed equals the bytes written (no buffer overflow), for all lengths and n.", "quantifier": "all strings, separators and 64-bit n", "why_tests_cant": "overflow guards over 64-bit arithmetic", "anchors": ["src/lstrlib.c:str_rep"]}
{"id": "C24", "title": "string.pack/unpack of integers is a round trip", "statement": "For every size 1..16, both endiannesses and every integer that fits, unpacking what was packed returns the same integer (signed and unsigned); values that do not fit are rejected by pack, and unpack of more than 8 bytes rejects values that do not fit instead of truncating.", "quantifier": "all integers, sizes and byte orders", "why_tests_cant": "sizes x endianness x 2^64 values", "anchors": ["src/lstrlib.c:packint", "src/lstrlib.c:unpackint", "src/lstrlib.c:str_pack", "src/lstrlib.c:str_unpack"]}
{"id": "C25", "title": "Pattern matching is sound with respect to a declarative semantics", "statement": "Whenever the matcher reports a match of a pattern at a position, the matched span and captures satisfy the documented meaning of the pattern items, all captures lie within the subject, and the matcher never reads outside the subject or pattern.", "quantifier": "all patterns and subjects", "why_tests_cant": "backtracking over unbounded patterns/subjects", "anchors": ["src/lstrlib.c:match", "src/lstrlib.c:max_expand", "src/lstrlib.c:min_expand", "src/lstrlib.c:matchbalance"]}
{"id": "C26", "title": "Plain search finds the first occurrence", "statement": "string.find(s,p,init,true) returns the least position >= init at which p occurs in s, or nil if there is none.", "quantifier": "all byte strings s, p and init", "why_tests_cant": "unbounded strings with embedded zeros and repeated prefixes", "anchors": ["src/lstrlib.c:lmemfind"]}
{"id": "C27", "title": "table.sort permutes and sorts", "statement": "For any comparison function whatsoever, if table.sort returns normally then the array elements 1..n are a permutation of the original ones and all accesses during sort were at indexes within 1..n except where the comparison function is inconsistent, in which case an 'invalid order function' error may be raised; if the comparison is a strict weak order then sort raises no error, terminates, and the result is sorted.", "quantifier": "all arrays, all comparison functions, all pivot choices", "why_tests_cant": "unbounded arrays x arbitrary comparison functions", "anchors": ["src/ltablib.c:auxsort", "src/ltablib.c:partition", "src/ltablib.c:choosePivot"]}
{"id": "C28", "title": "table.insert / table.remove shift exactly", "statement": "table.insert(t,pos,v) with 1<=pos<=#t+1 yields the sequence with v inserted at pos; table.remove(t,pos) yields the sequence without its pos-th element and returns that element; remove after insert at the same position restores the sequence; positions out of range raise an error and change nothing.", "quantifier": "all sequences and positions", "why_tests_cant": "unbounded sequences", "anchors": ["src/ltablib.c:tinsert", "src/ltablib.c:tremove"]}
{"id": "C29", "title": "table.move copies as if simultaneously", "statement": "table.move(a,f,e,t[,b]) leaves b[t+i] equal to the original a[f+i] for all 0<=i<=e-f and changes nothing else, also when source and destination overlap in the same table; integer overflow of the ranges is detected and reported as an error.", "quantifier": "all ranges and overlaps, all 64-bit f,e,t", "why_tests_cant": "overlap direction logic over all 64-bit ranges", "anchors": ["src/ltablib.c:tmove"]}
{"id": "C30", "title": "Instruction fields are independent and lossless", "statement": "For every instruction format, building an instruction from an opcode and in-range arguments and reading any field back returns the argument, and setting one field leaves the other fields unchanged; sBx covers [-MAXARG_sBx, MAXARG_sBx-1] exactly, registers and constants share the RK operand without collision.", "quantifier": "all opcodes and field values", "why_tests_cant": "2^32 instructions x field updates", "anchors": ["src/lopcodes.h:CREATE_ABC", "src/lopcodes.h:SETARG_A", "src/lopcodes.h:GETARG_sBx"]}
{"id": "C31", "title": "string.dump followed by load reproduces the function", "statement": "Serializing any function prototype and loading the bytes back yields an identical prototype (code, constants including strings of any length, upvalue descriptors with types, nested prototypes, debug info); with strip, everything except names, line info and sources is preserved, including all Ravi types of locals and upvalues. Any strict prefix of a dump is rejected as truncated.", "quantifier": "all prototypes (unbounded nesting), strip or not", "why_tests_cant": "unbounded recursive structures", "anchors": ["src/ldump.c:luaU_dump", "src/ldump.c:DumpFunction", "src/lundump.c:luaU_undump", "src/lundump.c:LoadFunction"]}
{"id": "C32", "title": "Closures share variables, not values", "statement": "Two closures that capture the same active local refer to the same variable: a write through one (or through the local) is seen by the other, before and after the variable's scope is closed, and distinct locals (or distinct activations) are never shared; for any history of captures, writes and scope exits.", "quantifier": "all histories of capture, write and close", "why_tests_cant": "unbounded histories of a linked list of open variables", "anchors": ["src/lfunc.c:luaF_findupval", "src/lfunc.c:luaF_close"]}
{"id": "C33", "title": "Deferred functions run exactly once, in reverse order", "statement": "When a scope is left (normally or by error), every function registered by defer in that scope whose value is a function is called exactly once, in reverse order of registration, even when some of them raise errors; none outside the scope is called.", "quantifier": "all sets of deferred functions, all error behaviours", "why_tests_cant": "all combinations of errors inside deferred functions", "anchors": ["src/lfunc.c:luaF_close", "src/lfunc.c:calldeferredfunction", "src/ldo.c:luaD_pcall"]}
{"id": "C34", "title": "References from luaL_ref are unique while live", "statement": "For any history of luaL_ref/luaL_unref (each reference released at most once), luaL_ref never returns a reference that is still live, a live reference always yields the object it was created for, and nil always maps to LUA_REFNIL.", "quantifier": "all histories of ref/unref", "why_tests_cant": "unbounded free-list histories", "anchors": ["src/lauxlib.c:luaL_ref", "src/lauxlib.c:luaL_unref"]}
{"id": "C35", "title": "Buffers deliver exactly the bytes added", "statement": "For any sequence of luaL_addlstring/addchar/addvalue/prepbuffsize+addsize operations, luaL_pushresult produces the concatenation of the added pieces; the buffer is never written outside its capacity and size computations do not wrap silently.", "quantifier": "all operation sequences and lengths", "why_tests_cant": "buffer doubling with size_t arithmetic over unbounded sequences", "anchors": ["src/lauxlib.c:luaL_prepbuffsize", "src/lauxlib.c:luaL_addlstring", "src/lauxlib.c:luaL_pushresult"]}
{"id": "C36", "title": "lua_rotate rotates", "statement": "lua_rotate(L, idx, n) turns the segment idx..top from A B into B A where B are the n top elements (or the reverse for negative n), leaves the rest of the stack unchanged; rotate by n then by -n is the identity; insert/remove/replace derived from it move exactly one element.", "quantifier": "all stacks, idx and n", "why_tests_cant": "all segment lengths", "anchors": ["src/lapi.c:lua_rotate", "src/lapi.c:reverse"]}
{"id": "C37", "title": "The metamethod cache is invisible", "statement": "For every history of raw and non-raw stores into a metatable, looking up a metamethod (e.g. __index, __eq, __len) gives the same result as a raw lookup of its name: the per-table 'absent' bits never hide a metamethod that is present.", "quantifier": "all histories of stores and lookups", "why_tests_cant": "cache invalidation over unbounded histories", "anchors": ["src/ltm.c:luaT_gettm", "src/ltm.h:fasttm", "src/ltable.h:invalidateTMcache", "src/lvm.c:luaV_finishset"]}
{"id": "C38", "title": "Typed locals always hold values of their declared type", "statement": "Every conversion/check instruction that writes a value into a typed local either raises an error or leaves a value of the declared type, and debug.setupvalue/upvaluejoin cannot store a value of another type into a typed upvalue.", "quantifier": "all values and all Ravi type annotations", "why_tests_cant": "all value/type combinations and API interleavings", "anchors": ["src/lvm.c:raviV_checktype", "src/lvm.c:luaV_execute(OP_RAVI_TOINT..)", "src/lapi.c:lua_setupvalue", "src/lapi.c:lua_upvaluejoin"]}
{"id": "C39", "title": "bit32 functions match their 32-bit specification", "statement": "Every bit32 function returns the mathematically specified 32-bit result for all integer arguments, for every displacement and every field/width, and executes no undefined shift.", "quantifier": "all 64-bit arguments", "why_tests_cant": "displacement corners at minint/maxint", "anchors": ["src/lbitlib.c:b_shift", "src/lbitlib.c:b_rot", "src/lbitlib.c:fieldargs", "src/lbitlib.c:b_replace"]}
{"id": "C40", "title": "math.random stays within its interval and reaches all of it", "statement": "math.random(m,n) returns an integer in [m,n] for all m<=n (including intervals spanning more than half the integers), every value of the interval is produced by some generator output, and the rejection loop accepts with probability at least one half per draw.", "quantifier": "all intervals and generator outputs", "why_tests_cant": "2^128 intervals", "anchors": ["src/lmathlib.c:project", "src/lmathlib.c:math_random"]}
{"id": "C41", "title": "The compiler's bit sets behave as sets", "statement": "Bit-set operations of the Ravi compiler (set, clear, test, copy, union/intersection/difference via op2, equality, emptiness, count, iteration) behave as the corresponding finite-set operations over any history.", "quantifier": "all histories of operations", "why_tests_cant": "stale words beyond the logical length only show after particular histories", "anchors": ["ravicomp/src/bitset.c:raviX_bitset_set_bit_p", "ravicomp/src/bitset.c:raviX_bitset_copy", "ravicomp/src/bitset.c:raviX_bitset_op2", "ravicomp/src/bitset.c:bitset_expand"]}
{"id": "C42", "title": "The compiler's dominator tree is correct", "statement": "For every control-flow graph in which every node is reachable from the entry, the computed IDOM array is the immediate-dominator relation.", "quantifier": "all rooted graphs", "why_tests_cant": "all graphs, including irreducible ones", "anchors": ["ravicomp/src/dominator.c:raviX_calculate_dominator_tree", "ravicomp/src/dominator.c:intersect"]}
{"id": "C43", "title": "Quoted strings read back", "statement": "For every byte string s, the text produced by string.format('%q', s) is a Lua literal which the lexer reads back as exactly s.", "quantifier": "all byte strings", "why_tests_cant": "arbitrary byte sequences such as a zero or CR followed by digits", "anchors": ["src/lstrlib.c:addquoted", "src/llex.c:read_string"]}
{"id": "C44", "title": "The garbage collector never frees a reachable object", "statement": "In incremental mode, for every interleaving of mutator stores (with the write barriers the VM and API execute) and collector steps, an object reachable from the roots is never freed, and every object unreachable at the start of a cycle's mark phase and thereafter is freed by the end of that cycle's sweep.", "quantifier": "all heaps and interleavings", "why_tests_cant": "all schedules of mutator and collector", "anchors": ["src/lgc.c:singlestep", "src/lgc.c:luaC_barrier_", "src/lgc.c:luaC_barrierback_", "src/lgc.c:propagatemark", "src/lgc.c:sweeplist"]}
{"id": "C45", "title": "Stack reallocation preserves every reference", "statement": "Growing or shrinking the Lua stack keeps all values and moves top, frames' func/top/base and open upvalues to the same relative positions; the stack never exceeds its limit plus the error reserve, and a request that cannot be satisfied raises a stack overflow error without losing values.", "quantifier": "all stacks, frames and requests", "why_tests_cant": "every reallocation point", "anchors": ["src/ldo.c:luaD_reallocstack", "src/ldo.c:luaD_growstack", "src/ldo.c:correctstack"]}
{"id": "C46", "title": "Concatenation of many values equals left-to-right joining", "statement": "a1 .. a2 .. ... .. an over strings and numbers yields the concatenation of their string forms in order whatever the grouping chosen by the VM; a total length overflow raises an error instead of truncating.", "quantifier": "all n and all strings", "why_tests_cant": "loop collects variable numbers of operands at once", "anchors": ["src/lvm.c:luaV_concat", "src/lvm.c:copy2buff"]}
{"id": "C47", "title": "Call results are adjusted to the number wanted", "statement": "After a call returning r values where w are wanted, the caller sees exactly the first min(r,w) results followed by nils (all r results for multiple-results calls), for all overlapping source and destination positions.", "quantifier": "all r, w and stack layouts", "why_tests_cant": "overlapping moves", "anchors": ["src/ldo.c:moveresults", "src/ldo.c:luaD_poscall"]}
{"id": "C48", "title": "Vararg adjustment delivers the right parameters", "statement": "On entry to a vararg function with any number of actual arguments, the fixed parameters equal the first arguments (nil-padded) and `...` yields exactly the remaining arguments in order.", "quantifier": "all argument counts and parameter counts", "why_tests_cant": "unbounded counts", "anchors": ["src/ldo.c:adjust_varargs", "src/lvm.c:luaV_execute(OP_VARARG)"]}
{"id": "C49", "title": "Chunk identifiers fit their buffer", "statement": "The chunk name shown in messages is always NUL-terminated within its fixed-size buffer and is a correct abbreviation (prefix/suffix/first line) of the source name, for every source string.", "quantifier": "all source names and buffer sizes", "why_tests_cant": "unbounded names around the buffer boundary", "anchors": ["src/lobject.c:luaO_chunkid"]}
{"id": "C50", "title": "Type-specialised integer for loops equal the generic ones", "statement": "A for loop whose three expressions have static type integer and whose step is an integer constant gives the loop variable the same values as the generic loop a, a+s, a+2s, ... up to the limit, whichever opcode pair the parser selects.", "quantifier": "all int64 init, limit and constant steps", "why_tests_cant": "the opcode choice depends on the step constant and the iteration count is unbounded", "anchors": ["src/lparser.c:fornum", "src/lparser.c:exp1", "src/lparser.c:forbody", "src/lvm.c:luaV_execute(OP_RAVI_FORPREP_IP,OP_RAVI_FORLOOP_IP,OP_RAVI_FORPREP_I1,OP_RAVI_FORLOOP_I1)"]}
{"id": "C51", "title": "Float for loops", "statement": "A float for loop gives the loop variable the values init, init+step, ... starting with init itself, as long as they do not pass the limit, and ends.", "quantifier": "all doubles init, limit, step", "why_tests_cant": "depends on rounding over the whole double range and an unbounded number of iterations", "anchors": ["src/lvm.c:luaV_execute(OP_FORPREP,OP_FORLOOP)"]}
{"id": "C52", "title": "lua_pushstring never returns a wrong or dead string", "statement": "luaS_new (used by lua_pushstring, lua_getfield, ...) returns a live string object whose bytes are exactly those of the C string passed, for any contents of the address-indexed string cache and any preceding garbage collections.", "quantifier": "all histories of string creations and collector actions", "why_tests_cant": "depends on address reuse, cache collisions and collector timing", "anchors": ["src/lstring.c:luaS_new", "src/lstring.c:luaS_clearcache", "src/lgc.c:atomic"]}
{"id": "C53", "title": "table.concat, table.pack and table.unpack move values faithfully", "statement": "table.concat(t,sep,i,j) is the string forms of t[i..j] separated by sep, or an error if one of them is neither string nor number; table.unpack(t,i,j) returns exactly t[i], ..., t[j] in order for all 64-bit i, j, or an error when they do not fit; table.unpack(table.pack(...)) gives the arguments back.", "quantifier": "all tables, separators, 64-bit indices and argument lists", "why_tests_cant": "index arithmetic at the ends of the 64-bit range and unbounded argument counts cannot be sampled exhaustively", "anchors": ["src/ltablib.c:tconcat", "src/ltablib.c:pack", "src/ltablib.c:unpack"]}
{"id": "C54", "title": "The utf8 library agrees with the encoded code points", "statement": "For a string encoding code points x1..xn, utf8.char(x1..xn) produces it, utf8.len returns n, utf8.codepoint(s,1,-1) returns x1..xn and utf8.codes visits them in order with their byte positions; conversely a string that is not such an encoding is reported (utf8.len gives the first invalid position, utf8.codes raises an error).", "quantifier": "all strings, all code point sequences, strict and lax", "why_tests_cant": "unbounded byte strings", "anchors": ["src/lutf8lib.c:utflen", "src/lutf8lib.c:codepoint", "src/lutf8lib.c:iter_aux", "src/lutf8lib.c:utfchar"]}
{"id": "C55", "title": "Jumps go where the code generator was asked to send them", "statement": "For every sequence of emit, jump, concatenate-lists, patch-to-label, patch-to-here and nil-load operations of the code generator, the resulting code sends every patched jump (including jumps to jumps and pending jumps) to the position requested; a jump that is too long to encode is rejected with an error instead of being sent elsewhere.", "quantifier": "all sequences of code-generator operations, both byte orders", "why_tests_cant": "Jump lists are threaded through the offset fields of the instructions themselves; a wrong link only shows for particular combinations and distances (up to 2^15 instructions).", "anchors": ["src/lcode.c:getjump", "src/lcode.c:fixjump", "src/lcode.c:luaK_concat", "src/lcode.c:luaK_jump", "src/lcode.c:patchlistaux", "src/lcode.c:luaK_patchlist"]}
{"id": "C56", "title": "Merging nil loads does not change the program", "statement": "When the code generator extends the previous OP_LOADNIL instead of emitting a new one, the effect on the registers is the same as emitting it, for every pair of register ranges, and it never merges across a jump target.", "quantifier": "all register ranges, all preceding code", "why_tests_cant": "Wrong merging only shows for specific adjacency/overlap of ranges and jump targets.", "anchors": ["src/lcode.c:luaK_nil", "src/lvm.c:luaV_execute(OP_LOADNIL)"]}
{"id": "C57", "title": "Tail calls and __call deliver the same frame as ordinary calls", "statement": "A tail call to a Lua function leaves, in the place of the calling frame, exactly the function, parameters and extra arguments that an ordinary call would have delivered, and a call through __call passes the called value as first argument before the original ones; no slot below the frame changes.", "quantifier": "all argument counts, parameter counts, frame positions and overlaps", "why_tests_cant": "The copies overlap by an amount that depends on the caller's frame size and the number of arguments; tests sample a few layouts.", "anchors": ["src/lvm.c:1801", "src/ldo.c:331", "src/ldo.c:431"]}
{"id": "C58", "title": "The random generator never degenerates", "statement": "After any seeding and any number of draws the generator state is never the all-zero fixed point, distinct states have distinct successors, and math.random() with no argument is a float in [0,1) for every generator output; math.randomseed is defined for every number.", "quantifier": "all seeds, states and numbers of draws", "why_tests_cant": "There are 2^256 states; a degenerate state or a collision would be met by no test.", "anchors": ["src/lmathlib.c:323", "src/lmathlib.c:351", "src/lmathlib.c:609", "src/lmathlib.c:634"]}
{"id": "C59", "title": "A control-flow graph holds exactly the edges added and not deleted", "statement": "After any sequence of raviX_add_edge and raviX_delete_edge calls, raviX_has_edge(a, b) is true exactly when the last operation on (a, b) was an addition; predecessor lists mirror successor lists and hold no duplicates; and adding an edge works as long as neither list has 65528 entries.", "quantifier": "all sequences of additions and deletions over all node numbers", "why_tests_cant": "Node arrays and link lists grow and shift over unbounded histories; a test covers a few graphs.", "anchors": ["ravicomp/src/graph.c:raviX_add_edge", "ravicomp/src/graph.c:raviX_delete_edge", "ravicomp/src/graph.c:raviX_has_edge", "ravicomp/src/graph.c:node_list_add"]}
{"id": "C60", "title": "Depth-first numbering and edge classification are right", "statement": "raviX_classify_edges numbers exactly the nodes reachable from the entry, with distinct numbers in reverse postorder, and marks as BACKWARD exactly the edges that do not go to a larger number; every reachable cycle contains such an edge.", "quantifier": "all graphs", "why_tests_cant": "A statement about every graph, including irreducible ones and self loops.", "anchors": ["ravicomp/src/graph.c:raviX_classify_edges", "ravicomp/src/graph.c:DFS_classify", "ravicomp/src/graph.c:raviX_sort_nodes_by_RPO"]}
{"id": "C61", "title": "The data-flow solver stops, and stops at a stable solution", "statement": "For every graph and every pair of join and transfer functions on a finite lattice, raviX_solve_dataflow ends, passes the given user data to the callbacks, and leaves a state which no further join or transfer changes.", "quantifier": "all graphs, all callbacks, both directions", "why_tests_cant": "Stability depends on the order in which nodes are handled and on how often; small graphs look right.", "anchors": ["ravicomp/src/dataflow_framework.c:raviX_solve_dataflow", "ravicomp/src/bitset.c:raviX_bitset_set_bit_p"]}
{"id": "C62", "title": "string.unpack reads back what string.pack wrote, for whole formats", "statement": "If string.pack(fmt, ...) succeeds, string.unpack with the same format applied to the result returns the arguments in order (integers and length- or zero-terminated strings exactly, doubles bit for bit, single-precision floats rounded once, fixed-size strings padded with zeros) and the position one past the end; string.packsize(fmt), when it succeeds, is the length of the result; every item starts at a multiple of its alignment; no format, argument, data or start position makes any of the three read or write outside its strings, overflow an int, or loop.", "quantifier": "for all format strings, argument lists, data strings, start positions and both byte orders", "why_tests_cant": "Formats combine options, sizes 1-16, byte orders and alignments without bound; padding depends on the running offset, which must agree between writer, reader and packsize.", "anchors": ["src/lstrlib.c:1403-1509", "src/lstrlib.c:1516-1547", "src/lstrlib.c:1550-1651", "src/lstrlib.c:1664-1755"]}
{"id": "C63", "title": "Quoted string literals mean what the manual says", "statement": "For every text after an opening quote, the lexer accepts it as a string literal exactly if it is a sequence of plain bytes and valid escapes up to the same quote, and the string value is the concatenation of what the pieces stand for; everything else is an error.", "quantifier": "all texts, both delimiters, all escape sequences", "why_tests_cant": "The set of literals is infinite and the rules for decimal, hexadecimal, UTF-8, newline and \\z escapes depend on what follows them.", "anchors": ["llex.c:341-451"]}
{"id": "C64", "title": "The lexer is defined on every input, ends, and counts lines exactly", "statement": "For every byte sequence the lexer finishes without reading or removing what is not there; each token except end-of-input consumes at least one byte; the line reported is the first line plus the number of line breaks passed, a CR LF or LF CR pair counting once.", "quantifier": "all byte sequences given as chunks", "why_tests_cant": "Memory safety and termination over arbitrary inputs are not settled by any sample.", "anchors": ["llex.c:160-168", "llex.c:493-620"]}
{"id": "C65", "title": "Long brackets are exact", "statement": "A long string of level k ends at the first closing bracket of level k; its value is the text between, with a first line break dropped and every line break read as \\n; without a closing bracket it is an error. Long comments end at the same place. Every string without carriage returns can be written as a long string.", "quantifier": "all texts and levels", "why_tests_cant": "Overlapping brackets of other levels and partial closers occur in infinitely many arrangements.", "anchors": ["llex.c:278-329"]}
{"id": "C66", "title": "User type names after @ are kept apart from built-in casts", "statement": "@name is a built-in cast exactly if name is one of integer, integer[], number, number[], table, string, closure; any other name is a user type name.", "quantifier": "all names", "why_tests_cant": "Only names that are prefixes of built-in ones are mishandled; tests use whole names.", "anchors": ["llex.c:457-490"]}
{"id": "C67", "title": "string.find and string.match return the leftmost match", "statement": "For every well-formed pattern, string.find and string.match return the place and the captures of the preferred match at the leftmost position, counted from init, where the pattern matches at all (only at init for a pattern that begins with ^), and nil exactly when there is none; the shortcut of find for patterns without special characters gives the same result; no pattern, malformed or not, reads outside subject or pattern.", "quantifier": "all subjects, patterns and initial positions", "why_tests_cant": "unbounded subjects and patterns; the two search paths must agree on all of them", "anchors": ["src/lstrlib.c:str_find_aux", "src/lstrlib.c:nospecials", "src/lstrlib.c:push_captures"]}
{"id": "C68", "title": "string.gmatch and string.gsub go through the successive matches and end", "statement": "gmatch yields exactly the successive matches (each search begins where the last match ended, and a match may not end where the last one ended), in finitely many iterations; gsub replaces exactly these matches (at most max_n, only the first for an anchored pattern) by the expansion of the replacement string, or by the value of the function or table unless it is false, keeps the text between them, and returns their number.", "quantifier": "all subjects, patterns, replacements and limits", "why_tests_cant": "empty matches and adjacent matches interact over unbounded subjects", "anchors": ["src/lstrlib.c:gmatch_aux", "src/lstrlib.c:str_gsub", "src/lstrlib.c:add_s", "src/lstrlib.c:add_value"]}
{"id": "C69", "title": "The compiler library's hash tables and sets are maps and sets", "statement": "After any history of hash_table_insert / set_add, remove and purging iterations, a search finds exactly the last value inserted under an equal key and not removed since, iteration visits every remaining pair exactly once, no operation loops for ever or reads outside the table, also while the table grows or is rehashed because of tombstones.", "quantifier": "all histories with fewer than 2^30 live entries at any time, all key types with an equivalence as equality and a compatible hash function", "why_tests_cant": "double hashing with tombstones depends on the primality of the sizes and on the load limits; a failing probe sequence needs an unlucky history", "anchors": ["ravicomp/src/hash_table.c", "ravicomp/src/set.c"]}
{"id": "C70", "title": "The compiler library interns strings: equal strings are one object", "statement": "Of any sequence of strings given to raviX_create_string, two get the same StringObject exactly if they have the same bytes; the object holds these bytes and their keyword number.", "quantifier": "all sequences of up to 2^30 byte strings, including ones with zero bytes and colliding hashes", "why_tests_cant": "hash collisions and rehashing; pointer equality is used as string equality all over the compiler", "anchors": ["ravicomp/src/lexer.c:raviX_create_string", "ravicomp/src/lexer.c", "ravicomp/src/hash_table.c"]}
{"id": "C71", "title": "The constants of a function compiled by the library keep value and kind, each with its own slot", "statement": "Every integer, float and string constant entered in a procedure's constant table is recorded with exactly its own value, and two constants of the same kind get the same index exactly if they are the same constant.", "quantifier": "all sequences of constants", "why_tests_cant": "equal-comparing but different floats, NaN, and more than 65536 constants", "anchors": ["ravicomp/src/linearizer.c:add_constant", "ravicomp/src/linearizer.c:hash_constant", "ravicomp/src/linearizer.c:compare_constants"]}
{"id": "C72", "title": "Constant folding by the bytecode compiler does not change what an expression means", "statement": "For every arithmetic expression over numerals and other operands, the code emitted after constant folding yields exactly the value (subtype, sign of zero and NaN included), the error and the metamethod calls that the operators as written yield; and folding itself never raises an error.", "quantifier": "all expressions, operand values, metamethods and double operations", "why_tests_cant": "special values (division by zero, NaN, negative zero, wrap-around, non-integral floats in bitwise operators) at any depth of an expression", "anchors": ["src/lcode.c:validop", "src/lcode.c:constfolding", "src/lobject.c:luaO_rawarith", "src/lvm.c:luaV_execute"]}
{"id": "C73", "title": "Constant folding by the compiler library agrees with the virtual machine", "statement": "For every arithmetic expression, what ravicomp's simplification pass makes of it evaluates to exactly what the virtual machine computes for the expression as written, and the pass has no undefined behaviour and rejects no program.", "quantifier": "all expressions and operand values", "why_tests_cant": "the pass re-implements integer arithmetic; negative shifts, overflow and division by zero are single points of a huge space", "anchors": ["ravicomp/src/ast_simplify.c:intarith", "ravicomp/src/ast_simplify.c:luaV_shiftl", "ravicomp/src/ast_simplify.c:process_expression"]}
{"id": "C74", "title": "The bytecode of an expression computes the value of the expression", "statement": "For every expression over locals, upvalues, constants, table and function constructors, indexing, arithmetic, comparison, concatenation, calls, `not`, `and`, `or` and parentheses, the code the compiler emits evaluates the operands in the order the language prescribes, puts exactly the expression's value into its target register (or branches exactly on its truth value), raises exactly the errors evaluation raises, changes no local variable, and leaves no register reserved.", "quantifier": "all expressions of any depth, any number of active locals, any register contents, any metamethod behaviour", "why_tests_cant": "jump lists, relocatable instructions and register reuse interact over expressions of unbounded shape; metamethods are arbitrary", "anchors": ["src/lcode.c:luaK_exp2nextreg", "src/lcode.c:luaK_goiftrue", "src/lcode.c:luaK_infix", "src/lcode.c:luaK_posfix", "src/lcode.c:exp2reg", "src/lparser.c:subexpr"]}
{"id": "C75", "title": "Expressions are parsed as the grammar and the precedence table of the manual say", "statement": "The parser accepts, from a sequence of tokens, exactly the expressions of the manual's grammar: the tree it builds has the tokens read as its text, every operand binds at least as tightly as its operator requires, operators of one level associate to the left except `..` and `^`, which associate to the right, and a unary operator binds weaker than `^` on its right and tighter than every other operator. It stops only before a token that does not continue the expression, it always ends with a tree or an error, and it raises the nesting error exactly for expressions nested deeper than the levels left.", "quantifier": "all token sequences of any length, all expressions of any depth, any number of levels left", "why_tests_cant": "the expressions are unbounded and any two of 21 binary and the unary operators can meet at any depth; ambiguity is a statement about all pairs of trees", "anchors": ["src/lparser.c:subexpr", "src/lparser.c:getbinopr", "src/lparser.c:priority", "src/lparser.c:suffixedexp", "src/lparser.c:constructor", "src/lparser.c:funcargs", "src/lparser.c:enterlevel", "ravicomp/src/parser.c:parse_sub_expression"]}
{"id": "C76", "title": "A name is the innermost visible variable, and functions share it", "statement": "While a program is compiled, every use of a name is resolved to the visible local variable of that name declared last (variables become visible only after their declaration is complete, and vanish at the end of their block), through a register if the variable belongs to the same function and through a chain of upvalue descriptors otherwise; a name without such a variable is a field of the variable `_ENV`, found in the same way. An upvalue of a function is the same variable from when it is made until the function ends, the descriptors in the prototype name that variable in the enclosing function, and the code of a block closes upvalues, from the block's first register on, exactly when a function has used one of the block's variables. Only the limits of 125 variables and 125 upvalues make the compiler refuse a name.", "quantifier": "all sequences of declarations, blocks, functions and uses, nested to any depth, with any shadowing", "why_tests_cant": "upvalue lists are found by name and extended in all intermediate functions while these are still open; the interplay with shadowing and pending declarations is unbounded", "anchors": ["src/lparser.c:singlevaraux", "src/lparser.c:singlevar", "src/lparser.c:searchvar", "src/lparser.c:searchupvalue", "src/lparser.c:newupvalue", "src/lparser.c:markupval", "src/lparser.c:leaveblock", "src/lparser.c:open_func", "src/lparser.c:close_func", "src/lparser.c:adjustlocalvars", "src/lparser.c:removevars"]}
{"id": "C77", "title": "The bytecode of a function does what its statements say", "statement": "For every function body made of local declarations, assignments (to any number of locals, upvalues, globals and fields), calls, `do`, `while`, `repeat`, `if`/`elseif`/`else`, numeric `for`, labels, `goto`, `break` and `return`, nested in any way, if the compiler accepts the body then the code it emits, called with given arguments, returns exactly the values the statements return, with the same effects in the same order, raises exactly the errors they raise, and runs for ever exactly if they do. In particular every jump goes to the statement after the label that is visible there, every loop is left by `break` and by its condition only, and variables are where the code that uses them expects them after each jump.", "quantifier": "all function bodies of any size and nesting, all arguments, any number of steps including infinitely many, any metamethod behaviour (that does not itself change an upvalue whose field the function assigns)", "why_tests_cant": "pending gotos, patch lists and the special code for `if c then goto l` interact over bodies of unbounded shape, and runs may be infinite", "anchors": ["src/lparser.c:statement", "src/lparser.c:gotostat", "src/lparser.c:labelstat", "src/lparser.c:closegoto", "src/lparser.c:movegotosout", "src/lparser.c:leaveblock", "src/lparser.c:test_then_block", "src/lparser.c:whilestat", "src/lparser.c:repeatstat", "src/lparser.c:forbody", "src/lcode.c:luaK_patchlist", "src/lcode.c:luaK_patchtohere", "src/lparser.c:assignment"]}
{"id": "C78", "title": "A function is refused for its gotos, breaks or labels exactly if it breaks the rules for them", "statement": "If the compiler accepts a function body then every `goto` in it goes to a label that is visible where it stands and does not enter the scope of a local variable, every `break` is inside a loop, and no block defines a label twice; labels at the end of a block count as outside the scope of the block's variables, except before `until`. Conversely, if the compiler reports one of these errors, the body really breaks one of these rules.", "quantifier": "all function bodies of any size and nesting, any number of parameters", "why_tests_cant": "whether a pending goto is matched with the right label depends on how it has been moved out through any number of nested blocks with any number of variables and labels of the same name", "anchors": ["src/lparser.c:closegoto", "src/lparser.c:findlabel", "src/lparser.c:findgotos", "src/lparser.c:movegotosout", "src/lparser.c:breaklabel", "src/lparser.c:undefgoto", "src/lparser.c:leaveblock", "src/lparser.c:gotostat", "src/lparser.c:checkrepeated", "src/lparser.c:labelstat", "src/lparser.c:test_then_block"]}
{"id": "C79", "title": "A multiple assignment evaluates everything before it assigns anything", "statement": "For `v1, ..., vm = e1, ..., en`, where the variables are locals, upvalues and fields `a[b]` (globals among them) and the expressions are any, calls included, the code emitted evaluates the tables and keys on the left and the expressions on the right with all variables as they were before the statement, even where the statement itself assigns to a variable used as a table or key, and then stores the i-th value in the i-th variable, nil where there are too few values; no other local variable changes and errors are those of the operations. In particular `a, b = b, a` swaps, and `t[i], i, t = x, y, z` sets the field of the old table at the old index.", "quantifier": "all lists of variables and expressions of any length and size, all register contents, any metamethod behaviour that does not itself change an upvalue indexed on the left", "why_tests_cant": "conflicts between variables of one assignment arise in unboundedly many combinations of registers, upvalues and copies", "anchors": ["src/lparser.c:assignment", "src/lparser.c:check_conflict", "src/lparser.c:adjust_assign", "src/lparser.c:explist", "src/lcode.c:luaK_storevar", "src/lcode.c:luaK_setoneret"]}
{"id": "C80", "title": "A numeric for runs over the values of its three expressions", "statement": "`for i = a, b, c do` runs the loop for the values of a, b and c, whatever their form: how an expression is written does not change the values of i or make the loop fail. (The code makes the value of an expression whose first token is `#` an integer, so `for i = 1, #t/2 do` fails for a table with an odd number of elements and `for i = #t/2, n do` counts with integers instead of floats.)", "quantifier": "all values of the expressions, all forms, any number of iterations", "why_tests_cant": "the conversion depends on the first token and on the static type of an arbitrary expression, and its effect on the values", "anchors": ["src/lparser.c:exp1", "src/lparser.c:fornum", "src/lvm.c:luaV_execute(OP_RAVI_TOINT)", "src/lvm.c:luaV_forlimit"]}
{"id": "C81", "title": "A pointer list is a sequence", "statement": "The lists of the compiler library (`raviX_ptrlist_*` and the macros over them) behave like sequences: loops see each element once, in order or in reverse, also when the body deletes, replaces, inserts or marks elements; size, n-th element, first, last and linearize agree with that sequence; add, concat, remove, replace, undo_last, delete_last and pack change it as their names say; every operation touches only the nodes of its list, gives back those it no longer needs, and never leaves the array of a node. (In the code, loops that run backwards skip elements when the body deletes or inserts; inserting before every element never ends; empty nodes make `last` read outside the array; an insertion after MARK_CURRENT_DELETED can cut a list short.)", "quantifier": "all lists of any length, all ways the elements are spread over nodes, all heaps around the list, all allocators", "why_tests_cant": "correctness depends on how entries are spread over nodes of seven and on links through an unbounded ring; leaks and interference with other lists are not visible in results", "anchors": ["ravicomp/src/ptrlist.c", "ravicomp/src/ptrlist.h"]}
{"id": "C82", "title": "A call receives exactly the values of its arguments, and its results go exactly where they are wanted", "statement": "For every call `f(e1, ..., en)` in an expression, a list of expressions, an assignment, a declaration, a `return` or as a statement, the code emitted evaluates the function, then the arguments from left to right, and calls the function once with exactly these values; a call as last argument passes all its results on, one elsewhere or in parentheses exactly one (nil if there is none). `local a, b, c = x, f()`, `a, b, c = x, f()` and `return x, f()` use as many results of the call as are wanted, nil for those missing and none of those in excess, whatever was left in the registers above.", "quantifier": "all nestings of calls of any depth in arguments, any number of arguments and results, any function behaviour, any register contents before and after", "why_tests_cant": "open calls chain through `top` and reuse of registers over unboundedly many shapes, and what the called function leaves in the registers above the results is arbitrary", "anchors": ["src/lparser.c:funcargs", "src/lparser.c:explist", "src/lparser.c:adjust_assign", "src/lparser.c:localvar_adjust_assign", "src/lparser.c:retstat", "src/lparser.c:exprstat", "src/lcode.c:luaK_setreturns", "src/lcode.c:luaK_setoneret"]}
{"id": "C83", "title": "utf8.offset finds the bytes of characters, and ranges select the characters that start in them", "statement": "In a string that encodes code points, utf8.offset(s, n, i) with i at the start of a character returns the start of the n-th character from there for positive n, of the n-th before it for negative n, and nil if there is none; n = 0 gives the start of the character that contains byte i; an i inside a character is an error for other n. utf8.len(s, i, j) and utf8.codepoint(s, i, j) count and return exactly the characters that start between i and j. Negative indices count from the end. utf8.offset reads no byte outside any string, valid or not.", "quantifier": "all strings and code point sequences, all n, i and j", "why_tests_cant": "unbounded strings, and all combinations of positions, signs and counts, including reads just outside the string", "anchors": ["src/lutf8lib.c:byteoffset", "src/lutf8lib.c:utflen", "src/lutf8lib.c:codepoint", "src/lutf8lib.c:u_posrelat"]}
{"id": "C84", "title": "A table constructor builds exactly the table that its fields describe", "statement": "A constructor {...} evaluates its fields from left to right (with the errors of their expressions and of nil or NaN keys) and gives a table in which the values of the list items are at 1, 2, ..., followed by all values of the last item if it is a call or '...', and in which every other key has the value of the last record field with this key, or nil. This holds for any number of items and any mix of items and record fields, although the items are stored in batches of 50. Only for a record field whose key is also the place of an item is the result one of the two values; with fewer than 50 items it is that of the item.", "quantifier": "all sequences of fields, all expressions with any effects, all numbers of values of the last one up to the stack limit", "why_tests_cant": "numbers of items and mixes of fields are unbounded, the instruction has an extra argument only from 12751 items on, and the code of every expression may overwrite registers", "anchors": ["src/lparser.c:constructor", "src/lparser.c:closelistfield", "src/lparser.c:lastlistfield", "src/lcode.c:luaK_setlist", "src/lvm.c:OP_SETLIST"]}
{"id": "C85", "title": "The constructor of a typed array stores the value of the i-th item at i", "statement": "A constructor used for an integer[] or number[] value gives the array of the values of its items, converted to the element type, in order; a value that cannot be converted is an error.", "quantifier": "all sequences of items, all expressions with any effects", "why_tests_cant": "the number of items is unbounded, and the items are stored in batches of 50, so short constructors in tests do not reach the second batch", "anchors": ["src/lvm.c:OP_SETLIST", "src/lvm.c:raviV_op_setlist", "src/lcode.c:luaK_setlist", "src/lparser.c:closelistfield"]}
{"id": "C86", "title": "Coroutines pass values, keep their state, and catch errors as the manual says, across any nesting of yields, pcalls and resumes", "statement": "A program that creates, resumes and yields coroutines, with pcall and C callbacks in between, has the effects and results of the simple meaning: resume gives its arguments to the function or to the pending yield, yield gives its values to the pending resume, each suspended call keeps its variables and goes on with exactly the values it waits for; an error goes to the nearest pcall of the same coroutine, also if the coroutine was suspended inside that pcall, and otherwise kills the coroutine and is returned by resume; yields in the main coroutine or under a C call without continuation are errors; resuming a running, waiting or dead coroutine is an error that does not harm it; coroutine.status tells the state.", "quantifier": "all programs (arbitrary Lua functions), all numbers and nestings of coroutines, calls, pcalls and callbacks, all numbers of values, all numbers of steps", "why_tests_cant": "a yield throws away the native stack, and what it held is rebuilt from CallInfos later; the interleavings of yields, pcalls, errors and resumes are unbounded", "anchors": ["src/ldo.c:lua_resume", "src/ldo.c:lua_yieldk", "src/ldo.c:unroll", "src/ldo.c:recover", "src/ldo.c:luaD_pcall", "src/lcorolib.c:auxresume", "src/lbaselib.c:luaB_pcall"]}
{"id": "C87", "title": "Indexing follows the chain of __index and __newindex handlers", "statement": "t[k] and t[k]=v do what section 2.4 of the manual says: a raw hit is used; else a function handler is called with the original object, key (and value); a handler that is not a function is indexed in turn, with the same rules, also when it is a typed array; without handler a table yields nil (or gets a new entry, or an error for the keys nil and NaN) and any other value raises an error. Exactly one table is changed, at exactly one key. The only other outcome is the error 'chain too long', and only for chains of 2000 links or more.", "quantifier": "all heaps, metatables, objects, keys and values; chains of any length, cyclic ones too", "why_tests_cant": "handler chains have any shape and length; the loop limit and the type tests in the loop are reached only by unusual handlers (typed arrays, userdata, cyclic chains)", "anchors": ["src/lvm.c:206-290 (luaV_finishget, luaV_finishset)", "src/lvm.c:293-430 (GETTABLE_INLINE, SETTABLE_INLINE)", "src/lvm.h:83-87 (luaV_fastget)", "src/ltm.c:70-87 (luaT_gettmbyobj)", "src/lvm.c:1499-1510 (OP_SELF)", "src/lapi.c:637-652 (auxgetstr)"]}
{"id": "C88", "title": "Metamethods and iterators may yield without changing their caller", "statement": "A Lua function whose instruction called a metamethod (arithmetic, concatenation, length, comparison, index, assignment), an iterator of a generic for, or a C function, ends up in the same state (registers, next instruction, flags) whether the called function yielded in between or not, provided it does the same otherwise; that includes a <= b done by not (b < a), and a concatenation of many operands with several metamethod calls of which any may yield.", "quantifier": "all programs, all operands, all behaviours of the called functions, all choices which calls yield, any number of instructions and operands", "why_tests_cant": "each instruction has two ways to be completed, in luaV_execute and in luaV_finishOp; they must agree for every operand, register and every point of a multi-operand concatenation", "anchors": ["src/lvm.c:1003-1064 (luaV_finishOp)", "src/lvm.c:1444-1760, 1939-1960 (luaV_execute)", "src/lvm.c:689-880 (luaV_lessthan, luaV_lessequal, luaV_equalobj, luaV_concat, luaV_objlen)", "src/ltm.c:125-190 (luaT_callTM ...)", "src/ldo.c:655-667 (unroll)"]}
{"id": "C89", "title": "Operators compiled by the compiler library compute what the language says", "statement": "The code that the compiler library generates for an arithmetic, bitwise or relational operator leaves the value (or raises the error) that the language gives for the operand values, whatever the static types of the operands are, i.e. whether the specialised instruction for integers, for numbers, for a mix, or the generic one is chosen, and whether the operands are exchanged or not.", "quantifier": "all operators, all static types of the operands, all operand values, all metamethods, all states of the function", "why_tests_cant": "operators x static types x value types x places where operands and result live; errors show only for particular values (odd dividend, extreme integers)", "anchors": ["ravicomp/src/linearizer.c:1015-1176 (linearize_binary_operator)", "ravicomp/src/typechecker.c:156-231", "ravicomp/src/codegen.c:1667-1890, 2164-2434 (emit_bin_ii ... emit_op_unm)"]}
{"id": "C90", "title": "Compiled expressions have the value and the effects of the source", "statement": "Running the basic blocks that the linearizer of the compiler library produces for an expression built from literals, local variables, indexing, operators, and, or, not and unary minus gives the value or the error of the expression, performs the same accesses and metamethod calls in the same order, and changes no local variable and no temporary that was in use.", "quantifier": "all expressions of any size, all static types of the variables, all values, all metamethods, all programs that contain the code", "why_tests_cant": "temporaries are reused, indexed loads are delayed until the value is used, operands are exchanged; whether these interfere depends on the shape of the whole expression", "anchors": ["ravicomp/src/linearizer.c:743-1287, 1314-1371, 1601-1632, 1980-2026", "ravicomp/src/linearizer.c:111-176, 518-641 (temporaries)", "ravicomp/src/codegen.c:1004-1106, 1309-1522, 1667-2518"]}
{"id": "C91", "title": "Expressions do not run out of temporaries", "statement": "Compiling an expression never writes outside the sets of 256 registers that the linearizer keeps, and the linearizer gives back all temporaries except the one that holds the result.", "quantifier": "all expressions, all states of the linearizer", "why_tests_cant": "the sets are fixed-size arrays without a bounds check; the number of temporaries grows with the nesting of the expression, which nothing bounds", "anchors": ["ravicomp/src/linearizer.c:111-176 (top_reg, pseudo_gen_alloc, pseudo_gen_free)", "ravicomp/src/linearizer.c:518-641", "ravicomp/src/linearizer.c:770-1176"]}
{"id": "C92", "title": "Assignments of the compiler library", "statement": "A function compiled by the compiler library performs a multiple assignment to local variables and indexed places as the language says: places and values are evaluated from left to right before anything is assigned, missing values are nil (or the zero of the declared type of the variable), every variable gets a value of its declared type, the stores happen, or the same error is raised.", "quantifier": "all assignments of any length to local variables and indexed places, all placements of variables, all states of the linearizer, all programs that contain the code, all values of the variables, all metamethods", "why_tests_cant": "whether a value is copied before a variable is overwritten depends on where the variable lives and on the order in which places and values are used; tests cover a few combinations out of an unbounded number", "anchors": ["ravicomp/src/linearizer.c:1730-1880 (linearize_store_var, copy_to_temp_if_necessary, linearize_assignment)", "ravicomp/src/linearizer.c:1907-1935 (linearize_expression_statement)", "ravicomp/src/codegen.c:2025-2051, 2436-2518"]}
{"id": "C93", "title": "Control statements of the compiler library", "statement": "A function compiled by the compiler library runs `if`/`elseif`/`else`, `while`, `repeat`, the numeric `for`, `break` and lists of statements as the language says: whenever the statement ends in the language, its code ends at the point after it, with the same values of the variables and the same memory; `break` leaves the innermost loop; an error of the language is raised by the code; a statement that runs for ever in the language has code that runs for ever, and code that stops belongs to a statement that ends; temporaries that surrounding code still uses are kept.", "quantifier": "all statements of any size and nesting, all numbers of rounds, all states of the linearizer, all placements of variables, all programs that contain the code, all values, all metamethods", "why_tests_cant": "which block a jump reaches and which registers are free there depend on everything linearized before; nesting and numbers of rounds are unbounded, and the edges of the integers show only for particular bounds of a loop", "anchors": ["ravicomp/src/linearizer.c:919-928, 2060-2226 (blocks, linearize_if_statement)", "ravicomp/src/linearizer.c:2366-2380 (break)", "ravicomp/src/linearizer.c:2501-2767 (linearize_for_num_statement, linearize_while_statment)", "ravicomp/src/linearizer.c:2955-2961 (start_block)", "ravicomp/src/codegen.c:1309-1336 (emit_op_cbr)"]}
{"id": "C94", "title": "The bit library matches its 32-bit specification", "statement": "Every function of the `bit` library returns the integer from -2^31 to 2^31-1 whose low 32 bits are those that its documentation says, as bits of the two's complement of the arguments: `tobit`, `bnot`, `band`/`bor`/`bxor` of any number of arguments, `lshift`, `rshift`, `arshift`, `rol`, `ror` with counts modulo 32, `bswap`; `tohex(x, n)` returns the last |n| (at most 8) hexadecimal digits, in capitals if n is negative.", "quantifier": "all integers, all numbers of arguments, all counts, all n", "why_tests_cant": "2^128 pairs of arguments, any number of arguments; a shift by 32 is undefined in C, and what a test shows of it depends on the processor", "anchors": ["src/bit.c:40-92"]}
{"id": "C95", "title": "tonumber with a base reads exactly the numerals of that base", "statement": "For a string s and an integer base, tonumber(s, base) raises an error iff the base is not from 2 to 36; otherwise it returns a number iff s is: white space, an optional sign, one or more digits or letters of either case all below the base, white space; the number is the value of the numeral, modulo 2^64 as a signed integer, hence the value itself if it fits. Otherwise it returns nil. Every integer can be written in every base.", "quantifier": "all strings (with any bytes, zeros among them), all bases", "why_tests_cant": "strings of any length; overflow, embedded zeros and letters past the base are cases that a sample misses", "anchors": ["src/lbaselib.c:46-66", "src/lbaselib.c:84-98"]}
{"id": "C96", "title": "select returns the suffix of its arguments that its index names", "statement": "select(i, ...) with an integer i > 0 returns the arguments from the i-th on, none if there are fewer; with i < 0 the last -i arguments; it raises an error iff i is 0 or i < 0 and there are fewer than -i arguments.", "quantifier": "all integers i, all lists of arguments", "why_tests_cant": "any number of arguments and any index, those near the limits of integers among them", "anchors": ["src/lbaselib.c:437-450"]}
{"id": "C97", "title": "Text buffers hold exactly the text added to them", "statement": "After any sequence of add_string, add_fstring and add_double calls on a new text buffer of any initial size, no assertion has failed and nothing was stored outside the buffer; its data is the C string that is the concatenation of all texts in order, and its position is their total length. For the buffers of the Ravi VM (membuff_t) this holds only if no formatted text is longer than 1023 bytes; a longer one is cut without an error.", "quantifier": "all initial sizes, all sequences of calls, all texts without zero bytes", "why_tests_cant": "sizes of buffers and texts are unbounded, and growth depends on where the position is relative to the capacity; a store past the end or a missing terminator often goes unnoticed", "anchors": ["ravicomp/src/membuf.c:37-142", "src/ravi_membuf.c:16-90"]}
{"id": "C98", "title": "What is loaded does not depend on the pieces that the reader returns", "statement": "A program that reads a stream with zgetc and luaZ_read (as the lexer and the loader of binary chunks do), up to the end of the stream, sees exactly the bytes that the lua_Reader returned before its first empty piece, in order, and the count of missing bytes at the end; no byte outside a piece is read. Hence two readers that return the same bytes in different pieces cannot be told apart. luaZ_read may be used after the end; zgetc may not (its counter has wrapped).", "quantifier": "all sequences of reads of all sizes, all sequences of pieces", "why_tests_cant": "tests use the readers for files and strings, whose pieces are whole buffers; a reader of the user may split the input at any byte", "anchors": ["src/lzio.c:23-67", "src/lzio.h:20"]}
{"id": "C99", "title": "Rounding, remainders and extremes of the mathematical library are exact", "statement": "For every number with a rational value, math.floor and math.ceil return the nearest integer not above / not below it, as an integer exactly if it has 64 bits and as a float of that very value otherwise; math.modf returns the value rounded towards zero (same rule) and a float that is exactly the rest. Infinities and NaN are returned by floor and ceil. math.fmod of integers raises an error for 0 and otherwise returns the remainder with the sign of the dividend; math.abs of an integer is the absolute value (the least integer stays); math.ult compares residues modulo 2^64. math.min and math.max of any integers and floats other than NaN return the first argument that is extreme by exact value.", "quantifier": "all integers, all doubles, all lists of arguments", "why_tests_cant": "2^64 doubles and integers, any number of arguments; the cases near 2^53 and 2^63 and mixtures of integers and floats go wrong by one unit", "anchors": ["src/lmathlib.c:29-38", "src/lmathlib.c:86-153", "src/lmathlib.c:162-167", "src/lmathlib.c:206-231"]}
{"id": "C100", "title": "Memory is counted exactly", "statement": "Whatever the program allocates, reallocates and frees through luaM_realloc_, whenever the allocator refuses and an emergency collection frees blocks, whenever memory errors are raised and caught, and however the collector sets its debt with luaE_setdebt, gettotalbytes (collectgarbage('count')) is exactly the sum of the sizes of the blocks that the allocator has given out. A call returns NULL exactly if the new size is 0; after a memory error the old block is still there with its size.", "quantifier": "all sequences of calls, all answers of the allocator, all sets of blocks freed by emergency collections", "why_tests_cant": "allocation failures at every point and collections inside of allocations; a drift of the count shows only in the pace of the collector", "anchors": ["src/lmem.c:77-99", "src/lstate.c:94-101", "src/lstate.h:325"]}
{"id": "C101", "title": "Growing vectors reach exactly their limit, at linear cost", "statement": "Elements added one by one with luaM_growvector to an empty vector are all stored, in order and inside the vector, if they are not more than the limit; otherwise the error 'too many' is raised, at the first element over the limit. No size computation overflows, the vector never has more places than the limit nor more than twice the elements plus 4, and all reallocations together move at most 4 places per element plus 8.", "quantifier": "all numbers of elements, all limits from 4 to MAX_INT", "why_tests_cant": "the limits of code, constants and functions are up to 2^26 and 2^31; cost over all growth histories", "anchors": ["src/lmem.c:48-65", "src/lmem.h:62-64"]}
{"id": "C102", "title": "Removing unreachable blocks does not change what a function does", "statement": "raviX_remove_unreachable_blocks ends, and no assertion fails, on every control-flow graph all of whose blocks are nodes. Every block that control can reach from the entry keeps its instructions and its successors, so control takes the same paths through the same instructions before and after; other blocks keep their instructions or lose all of them; and afterwards no block other than entry and exit has successors but no predecessor.", "quantifier": "all graphs, all instructions of blocks, all paths", "why_tests_cant": "the set of control-flow graphs is infinite; deletion cascades over any number of rounds", "anchors": ["ravicomp/src/opt_unusedcode.c:38-91"]}
{"id": "C103", "title": "Arrays of the compiler library hold what was pushed and lose what was deleted", "statement": "Elements pushed with array_push to a new array are all there, in order, and every write is inside the block; array_clearmem gives a new array. raviX_realloc_array with the right sizes keeps every old element and zeroes every new one. raviX_del_array_element removes exactly the n elements at i, zeroes the space that becomes free, touches nothing behind the array, and stops if the range is not inside the array.", "quantifier": "all sequences of pushes, all arrays, all ranges", "why_tests_cant": "all lengths; the assertion in raviX_realloc_array is compiled in only in some builds", "anchors": ["ravicomp/src/allocate.h:72-94", "ravicomp/src/allocate.c:58-94"]}
{"id": "C104", "title": "The control-flow graph is that of the code", "statement": "When raviX_construct_cfg succeeds, block b is a successor of block a, and a a predecessor of b, exactly if the jump or return at the end of a has b as a target, with no duplicates, and the nodes are entry, exit and the blocks that jump or are jumped to. It gives up exactly if some block that is not empty does not end with a jump or return. Construction followed by raviX_remove_unreachable_blocks leaves the instructions and the jumps of every block that control can reach by the jumps of the code.", "quantifier": "all functions of less than 65528 blocks whose jumps go to their own blocks", "why_tests_cant": "all shapes of control flow, and the composition of two passes on all of them", "anchors": ["ravicomp/src/cfg.c:35-64", "ravicomp/src/graph.c:181-218", "ravicomp/src/opt_unusedcode.c:38-91"]}
{"id": "C105", "title": "The search for modules tries exactly the files that the path describes", "statement": "package.searchpath (and require through it) always ends. In the name, the occurrences of the separator are replaced from the left without overlaps, nothing if it is empty. The templates are the parts of the path between semicolons that are not empty; for each, in order, every ? is replaced by the name and nothing else is changed, also if the name itself has a ?. The first file that can be opened is the result; otherwise the message has one entry for each file tried, in order. luaL_gsub replaces the occurrences of a pattern that is not empty, from the left and without overlaps.", "quantifier": "all names, paths, separators and sets of files", "why_tests_cant": "all strings, with overlaps and adjacent separators; termination", "anchors": ["src/lauxlib.c:1020-1040", "src/loadlib.c:473-526"]}
{"id": "C106", "title": "A traceback shows the calls that are active", "statement": "lua_getstack gives the call of every level from 0 to the number of active calls minus one and fails on every other level. debug.traceback from a level shows all the calls from that level outwards, in order, if these are at most 22; otherwise it shows the first ten of them, '...', and the eleven outermost calls; no call is shown twice and '...' stands for at least two calls.", "quantifier": "all stacks of up to 2^28 calls, all levels from 0 to the largest int minus one", "why_tests_cant": "all depths, including those next to powers of two for the search of the last level", "anchors": ["src/lauxlib.c:110-153", "src/ldebug.c:117-131"]}
{"id": "C107", "title": "Reading from a file gives its bytes, all of them, once", "statement": "file:read with a number gives that many bytes or what there is; with l the bytes before the next newline; with L also the newline if there is one; with a the rest. A read fails exactly at the end of the file (a never fails), and formats after one that failed are not tried. With any list of formats other than l, the strings returned, one after another, followed by what is left, are the file. The lines read with l until the end have no newlines, and with a newline behind each of them are the file, with a newline added if its last line has none. None of this depends on the size of the buffer.", "quantifier": "all files, all lists of formats, all sizes of the buffer", "why_tests_cant": "all contents, in particular lines whose length is a multiple of the buffer size", "anchors": ["src/liolib.c:475-577"]}
{"id": "C108", "title": "Reading a numeral takes white space and the numeral, and stays in its buffer", "statement": "file:read('n') takes from the file only white space and the bytes that it tries as a numeral, at most 200 of them, so its buffer of 201 bytes is never left; everything else is still there for the next read. An integer in decimal of at most 200 bytes, with or without a sign and after any white space, is tried exactly, and what follows it stays in the file. A row of more than 200 digits is refused.", "quantifier": "all files; all integers, signs, white space and continuations", "why_tests_cant": "all contents and lengths, in particular around the size of the buffer", "anchors": ["src/liolib.c:385-472"]}
{"id": "C109", "title": "io.open accepts exactly the documented modes, up to repeated b", "statement": "io.open accepts a mode exactly if it begins with r, w or a, then may have a +, and then has any number of b; every other string is refused before the C library sees it.", "quantifier": "all strings", "why_tests_cant": "all strings", "anchors": ["src/liolib.c:34-44", "src/liolib.c:261"]}
