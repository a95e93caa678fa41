# Formal model of Ravi (dibyendumajumdar/ravi) — design

The code under study is `/repo` (C sources of the Ravi VM and libraries, plus the
`ravicomp` compiler library).  It was read as text only; nothing was built or run.
The model is Lean 4 (core, plus single Mathlib modules where noted) under
`lean/Verif/`.

## Layout

* `Verif/<Topic>/Model.lean`  – executable model, function by function, every definition
  citing the file and lines it models and naming simplifications.
* `Verif/<Topic>/Spec.lean`   – the small independent specification (when it is more than
  one line; otherwise it sits at the head of the theorem file).
* `Verif/<Topic>/Lemmas.lean` – helper lemmas.
* `Verif/<Topic>/Props.lean`  – the property theorems (named in `MANIFEST.json`) and, beside
  each, an `example` showing that its hypotheses are met by a concrete non-trivial case.

## Trusted base

* Lean's kernel.  No axioms are added; property theorems depend on at most `propext`,
  `Classical.choice`, `Quot.sound` (checked with `#print axioms`, see the end of this file).
* The reading of the C code: the tie between model and code is the citation on each definition.
* C semantics assumed: LP64, 8-bit bytes, two's complement, `int`/`unsigned` 32 bits,
  `lua_Integer` 64 bits, `size_t` 64 bits, IEEE-754 binary64 `lua_Number`, and conversion of an
  out-of-range value to a signed integer type wraps (implementation-defined, as on gcc/clang).
  Undefined behaviour is not assumed away: where the code can reach it the model has a distinct outcome.
* Memory allocation failure is not modelled unless a property says so.
* The JIT/AOT back ends (`mir/`, generated C code) are not modelled: theorems are about the
  interpreter and library functions.

## Plan per property

| id | modelled | proof |
|----|----------|-------|
| C01–C03 | `luaV_idiv`, `luaV_mod`, `luaV_shiftl`, `intarith` over `BitVec 64` with C division as an operation that may be undefined | algebraic laws |
| C04, C05 | `luaO_int2fb`, `luaO_fb2int`, `luaO_ceillog2` (with its 256-entry table) | arithmetic; whole-table check lifted by a lemma |
| C06, C07 | doubles as NaN / ±inf / dyadic rationals with the 53-bit representability predicate; rounding of int→float kept abstract but monotone and exact on representable values | case analysis against exact comparison of rationals |
| C08 | `luaV_forlimit`, `OP_FORPREP`/`OP_FORLOOP` as a state machine | induction on the number of iterations |
| C09–C13 | node vector with `next` offsets, `lastfree`, array part, rehash/resize | inductive invariant, refinement to `Key → Option Value` |
| C14–C17 | Ravi arrays with explicit memory blocks, capacity, flags, slices | invariant + refinement; the falsified claims as negations with witnesses |
| C18 | string table with buckets, resize, removal | invariant |
| C19 | `l_strcmp` with `strcoll` = C-locale `strcmp` on zero-terminated chunks | equality with lexicographic order |
| C20 | `l_str2int`, decimal printing | round trip |
| C21 | `luaO_utf8esc`, `utf8_decode` | round trip both directions |
| C22, C23, C26 | `str_sub`, `str_byte`, `str_rep`, `lmemfind` | direct |
| C24 | `packint`, `unpackint` | round trip |
| C25 | `match` and helpers with fuel/depth | soundness by induction on fuel |
| C27 | `auxsort`, `partition` with arbitrary comparator and pivot stream | permutation invariant, sortedness under strict weak order |
| C28, C29 | `tinsert`, `tremove`, `tmove` on abstract maps | induction |
| C30 | `lopcodes.h` macros over `BitVec 32` | bit-vector case analysis |
| C31 | `ldump.c` / `lundump.c` on byte lists | round trip by mutual structural induction |
| C32, C33 | open upvalue list, closing, deferred functions with arbitrary error behaviour | refinement to variables-as-cells; induction |
| C34–C36 | `luaL_ref/unref`, `luaL_Buffer`, `lua_rotate` | invariants, direct |
| C37 | table flags + `luaT_gettm` + the stores | invariant |
| C38 | value/type lattice, conversion opcodes, upvalue API | case analysis |
| C39, C40 | `lbitlib.c`, `project` | bit-vector reasoning |
| C41, C42 | `bitset.c`, `dominator.c` | refinement; fixpoint argument |
| C43 | `addquoted` + `read_string` | round trip |
| C44 | incremental collector as a transition system with barriers | tri-colour invariant |
| C45–C49 | `ldo.c` stack functions, `luaV_concat`, `moveresults`, `adjust_varargs`, `luaO_chunkid` | direct |
| C50, C51 | `OP_RAVI_FORLOOP_*`, `OP_RAVI_FORPREP_*` and the selection in `fornum`; float loops over exact dyadics | simulation of the generic loop; witnesses |
| C52 | `luaS_new` with its cache over a memory of objects | invariant |
| C53 | `tconcat`, `pack`, `unpack` on raw tables | induction |
| C54 | `utflen`, `codepoint`, `utfchar`, `iter_codes`, `byteoffset` | induction over encoded code points |
| C55, C56, C30 | `lcode.c` jump lists, `luaK_nil`, instruction words | invariant of the emitted code; refinement of a machine |
| C57, C47, C48 | `luaD_precall`, `tryfuncTM`, `adjust_varargs`, `moveresults`, `OP_TAILCALL`, `OP_VARARG` on stacks with explicit slots | direct, arbitrary overlaps |
| C58, C40 | xoshiro256**, `project`, `math_random`, `randomseed` over `BitVec 64` | linear algebra over bits (injectivity), direct |
| C59–C61 | `graph.c`, `dataflow_framework.c` of the compiler library | invariant over histories; DFS by well-founded recursion; witnesses |
| C62 | `str_pack`, `str_unpack`, `getdetails` on whole formats | round trip by induction over the format |
| C63–C66 | `llex.c`: input stream, token buffer, strings, long brackets, comments, numerals, `@` names | grammar stated separately; simulation |
| C67, C68 | `str_find_aux`, `gmatch_aux`, `str_gsub` on top of the matcher of C25 | leftmost match; induction over the successive matches |
| C69 | `hash_table.c`, `set.c` of the compiler library, over arbitrary keys | refinement of a list of pairs; probe sequences are complete because the sizes are primes |
| C70, C71 | `raviX_create_string`, `add_constant` on top of C69 | invariants of the tables; witnesses |
| C72, C73 | `constfolding` with `luaO_rawarith`, `ast_simplify.c`, and the arithmetic instructions of the VM | equality of evaluations by induction over expressions; witnesses |
| C74 | the expression part of `lcode.c`: descriptors, jump lists with values, registers, constants, all operators; the instructions emitted | every generator step extends the code by a segment with a given meaning (`Ext`, `Spec`); induction over expressions (`gen_gs`); short cut of `luaK_goiftrue` as a parameter |
| C75 | `subexpr`, `simpleexp`, `suffixedexp`, `primaryexp`, `funcargs`, `constructor`, `explist` and the priority tables as a function from tokens to trees; the manual's grammar with levels and associativity as a predicate on trees | soundness by induction on the levels and the length of the input, completeness by induction on the tree, put together as an equivalence; uniqueness and the depth limit follow |
| C76 | `new_localvar`, `adjustlocalvars`, `removevars`, `singlevar(aux)`, `searchvar`, `searchupvalue`, `newupvalue`, `markupval`, `enterblock`, `leaveblock`, `open_func`, `close_func` as a machine over events; lexical scoping as an abstract machine with numbered declarations | simulation: the array of active variables is the concatenation of the scopes, each upvalue denotes what its name stands for around its function, marks are the captured variables; stability from the invariant |
| C77 | the statements of `lparser.c` without functions: blocks, labels, pending gotos, loops, conditions, on top of C74; a machine with a program counter; the meaning of statements in the continuation style, with loops and backward jumps followed to a depth | "the final code agrees with the generator's state" goes backward through every step of the generator; step-indexed simulation between continuations and code positions, by induction over statements; ends and divergence follow in both directions |
| C78 | same model as C77; the rules are stated by recursion over statements with the labels that are visible and the number of variables in scope at each | for every statement, the gotos left pending can be resolved in an environment iff those before it can and the statement follows the rules there; an error contradicts that for every environment; induction over statements |
| C79 | `assignment`, `check_conflict`, `adjust_assign`, `luaK_storevar`, on top of C74: the chain of variables on the left as the list of their descriptors; the meaning is targets first, then values, then stores from right to left | each descriptor of the chain still denotes its target after every later variable has been handled (the copy a conflict makes replaces the variable in all earlier descriptors), by induction over the variables; the stores by induction over the chain |
| C80 | `exp1` of `lparser.c` (2044-2070) with `OP_RAVI_TOINT`, before the generic loop of C08 | case analysis on the form of each expression; witnesses for the failure |
| C81 | `ptrlist.c` and `ptrlist.h` of the compiler library over a heap of nodes with explicit links; every operation but sort | representation predicate (ring of nodes, entries) with frame; loop invariants over the ring; witnesses for the failures |
| C82 | `funcargs`, `explist`, `luaK_setreturns`, `adjust_assign`, `retstat` and `exprstat` on top of C74, C77 and C79; a chain of calls each passing its results to the next is one instruction of the model; the called function is arbitrary, and so is what it leaves above its results | arguments are in consecutive registers up to the calls still open (`GA`), by induction over argument lists inside the induction over expressions; closing the calls gives the values of the list |
| C83 | `byteoffset` with reads outside `s` and its `\0` being undefined, ranges of `utflen` and `codepoint` (`Utf8/Offset`) | induction over encoded code points before and after the position |
| C84 | `constructor` and its parts, `luaK_setlist`, `OP_SETLIST` with 32-bit `last`; expressions are arbitrary effects (`Cons`) | induction over the fields; invariant: whole batches are in the table, the rest in registers |
| C85 | the same code with the array branch of `OP_SETLIST` and `raviH_set_int/float` | closed form of the code for up to 100 items; the general claim fails, and what is read instead is a theorem |
| C86 | threads with stack, CallInfos and native stack; `luaD_precall`, `luaD_poscall`, `lua_pcallk`, `lua_yieldk`, `lua_resume`, `unroll`, `recover`, `luaD_throw`, `lcorolib` as one step machine; Lua code is arbitrary (`Coro`) | simulation of a frame-stack semantics, invariant by induction over frames and steps |
| C87 | heaps as functions, `luaV_fastget`, `luaV_finishget`, `luaV_finishset`, `luaT_gettmbyobj` and the dispatch of the access macros, use of a typed array as a table as `ub` (`Meta`) | chain of handlers as a relation from the manual; induction over the loop counter, uniqueness of the chain; negation with witness for typed arrays |
| C88 | instructions that call, as trees of calls with continuations, `luaV_finishOp`, arbitrary called functions (`FinishOp`) | the continuation after each call and `luaV_finishOp` are related by a simulation; induction over the tree, over the operands of a concatenation and over the instructions |
| C89 | static types, choice of the instruction, exchange of operands, the C code of each instruction with overflow as `ub` (`Lin`) | case analysis over operator, types and values, against the arithmetic of `lvm.c`; negations with witnesses for `/` and for overflow |
| C90 | expressions, pseudos, pools of registers, pending indexed loads, basic blocks, runs of blocks in any program that contains them (`Lin`) | simulation: the code computes a value semantics with delayed loads, registers in use are framed; that semantics agrees with the language for expressions in which no load is overtaken; negations with witnesses for the others |
| C91 | as C90, the sets of registers as lists below 256, beyond that `ub` (`Lin`) | induction over the expression with the set of registers in use; induction over the length of a sum for the negation |
| C92 | targets, values, copies to temporaries, stores with conversion, initialisation of targets without a value (`Lin`) | simulation of the three phases; frame argument: no place that is still to be read is among those already written (`Fine`); negations with witnesses for the assignments that are not `Fine` and for conversions |
| C93 | blocks and jumps of `if`, `while`, `repeat`, numeric `for`, `break`, sequences (`LinStmt`); meaning of statements as a big-step relation over environments and memory | structural invariant of the linearizer (which blocks a statement writes, blocks stay open, registers in use are kept), then induction on the run of the language with a simulation statement for each kind of loop; unfinished runs with a count of rounds, so that endless runs are matched by endless code, and a proof that every statement ends in exactly one way or runs for ever; negations with witnesses for conditions of integer type, overflow in a `for`, loops over floats |
| C94 | all functions of `src/bit.c` on 32-bit words (`BitOp`) | every bit of the result against the bits of the arguments as integers; digits of `tohex` against division by 16; negations for rotations by 0 and for `tohex` with -2^31 |
| C95 | `b_str2int` and the branch of `tonumber` with a base, on lists of bytes (`BaseLib`) | a relation of numerals and their values, stated without the reader; the reader accepts exactly the numerals, with the value modulo 2^64; every integer has a numeral in every base |
| C96 | `luaB_select` with an integer index (`BaseLib`) | equation with `drop`, for every index and every list |
| C97 | both text buffers, on blocks of bytes of which some were never written (`MemBuf`) | invariant over sequences of calls: the block starts with the text and a zero; negation for formatted texts over 1023 bytes in `src/ravi_membuf.c` |
| C98 | `luaZ_fill`, `luaZ_read`, `zgetc` with a reader that is a list of pieces (`Zio`) | refinement: any sequence of reads on the pieces sees what it sees on the list of bytes; negation for `zgetc` after `EOZ` |
| C99 | the functions of `lmathlib.c` that round, compare or take remainders, on the doubles of `Float` (`MathLib`) | results against rational values (`Num.val`), with the subtraction in `modf` proved exact; first extreme element by induction on the arguments |
| C100 | `luaM_realloc_`, `luaE_setdebt` over a heap of named blocks, with an allocator that may refuse and emergency collections that free any blocks (`Mem`) | invariant of all sequences of calls: the count is the sum of the sizes |
| C101 | `luaM_growaux_`, `luaM_growvector` (`Mem`) | invariant of a vector under additions, with a count of the places moved |
| C102 | `process_block`, `process_proc` of `opt_unusedcode.c` over `Graph` (`Unused`) | invariant against the first graph (reachable blocks keep code and edges), number of blocks with successors as measure; paths by induction |
| C103 | `array_push`, `array_clearmem`, `raviX_realloc_array`, `raviX_del_array_element` (`CArray`) | negation with assertions compiled in; invariant of an array under pushes without; exact equation for deletion |
| C104 | `raviX_construct_cfg` of one function over `Graph` (`Cfg`) | invariant: edges and nodes are those of the jumps seen so far; totality from a bound on lists without duplicates; composition with C102 |
| C105 | `luaL_addgsub`, `pushnexttemplate`, `searchpath`, `ll_searchpath` (`Path`) | substitution against a declarative, unique replacement; the loop over templates equals `find?` over the parts of the path |
| C106 | `lua_getstack`, `lastlevel`, `luaL_traceback` (`Trace`) | invariants of the doubling and of the binary search; the loop over levels equals an expression on lists; negation at the ends of `int` |
| C107 | `read_line`, `read_all`, `read_chars`, `test_eof`, `g_read` (`IoRead`) | the loops over buffers equal expressions on the list of bytes, for every buffer size; conservation of bytes by induction on formats |
| C108 | `nextc`, `test2`, `readdigits`, `read_number` (`IoNum`) | invariant (buffer and rest of the file are the file) through all steps; exact run on decimal integers; overflow flag is kept |
| C109 | `l_checkmode` (`IoMode`) | equivalence with the shape of the accepted strings |

Properties not expressible: none so far.

## What is modelled, and what is not

Line numbers are on each definition; this is the summary. "Not modelled" lists what a reader might expect to be covered.

| directory | modelled | not modelled |
|-----------|----------|--------------|
| `Arith`, `Float`, `For` | integer operators, comparisons and conversions, generic and specialised `for` | float arithmetic is exact dyadic arithmetic with rounding as a parameter; string coercion of operands other than in `Num` |
| `Table` | the generic part of `ltable.c`: main position, collisions, rehash, resize, next, length | typed arrays (see `RArray`); allocation failure; element counters are naturals |
| `RArray` | typed arrays and slices: memory blocks, growth, flags, index arithmetic of the C API and the VM | the JIT's inline accesses |
| `StrTab`, `StrCmp`, `Concat`, `Num`, `StrLib`, `Pat`, `Pack`, `Utf8` | string table and cache, comparison, concatenation, number parsing and printing, `lstrlib.c` except `string.format` (only `%q`), `lutf8lib.c` | locales other than C; `strtod`/`snprintf` of floats are parameters |
| `TabLib`, `Sort`, `Ref`, `Buf`, `Bit32`, `Random` | `ltablib.c`, `luaL_ref`, `luaL_Buffer`, `lbitlib.c`, `math.random` | metamethods in `table.sort` |
| `Fold` | constant folding in both compilers, arithmetic instructions on numbers | double `*`, `/`, `pow`, `fmod` are parameters; string operands go to the metamethod parameter |
| `ExpCode` | `lcode.c` for expressions and `subexpr`: `exp2reg` and its callers, `luaK_goiftrue/false`, `codenot`, arithmetic, comparison, concatenation, indexing, calls (`funcargs`), method calls (`luaK_self`), `explist` into registers, assignment to locals | varargs, table constructors with fields, declared types, `#` on known tables, line information |
| `Stat` | `lparser.c` 783-937, 1833-2260, 2368-2489, `luaK_patchlist`: `local`, assignments (`Assign`), calls, blocks, loops (also generic `for`, `forlist` 2170-2192, and `OP_TFORCALL`, `OP_TFORLOOP`), `if`, `goto`, labels, `return` | functions, captured variables, typed `for` loops (C50), limits |
| `Cons` | `lparser.c` 1101-1215, `luaK_setlist`, `OP_SETLIST` (`lvm.c` 1960-2029) | code of the expressions (see `ExpCode`), record fields in typed arrays, size hints, register limit |
| `Coro` | `ldo.c` 122-145, 343-409, 603-862, `lapi.c` 123-136, 1250-1330, `lcorolib.c` 21-141, `lbaselib.c` 453-478 | hooks, continuations other than that of `pcall`, `xpcall`, deferred functions, `coroutine.wrap`, `nCcalls`, stack limits, positions in messages |
| `Meta` | `lvm.c` 206-430, 521-534, 1499-1510, `lvm.h` 83-87, `ltm.c` 70-87, `lapi.c` 637-652 | the table itself (`Table`), typed arrays (`RArray`), cache of metamethods (`TmCache`), barriers |
| `FinishOp` | `lvm.c` 689-880, 1003-1064, 1094-1110, 1444-1760, 1939-1960, `ltm.c` 125-190 | values and raw operations (parameters), hooks, collector, JIT, frames of Lua functions called by `OP_CALL` |
| `Lin` | `ravicomp/src/linearizer.c` 111-176, 390-436, 518-641, 743-891, 961-1287, 1314-1371, 1601-1632, 1730-1880, 1907-2026; `codegen.c` 1004-1106, 1309-1522, 1667-2518; `typechecker.c` 156-231 | calls, upvalues, globals, concatenation, `#`, `~`, casts, constructors, typed arrays; statements other than assignments; the functions of `lvm.c` that the C code calls (parameters) |
| `LinStmt` | `ravicomp/src/linearizer.c` 152-167, 919-928, 2060-2226, 2366-2380, 2501-2767, 2859-2918, 2955-2961; `codegen.c` 1309-1336, 2260-2289 | scopes (registers of all variables are in use throughout), captured variables and `op_close`, `goto` and labels, `return`, calls, the generic `for`, casts of untyped expressions of a `for` |
| `BitOp` | `src/bit.c` 37-92 | conversion of arguments (`luaL_checkinteger`), the self-test at load time |
| `BaseLib` | `src/lbaselib.c` 46-66, 84-98, 444-448 | locales other than C, conversion of arguments, `tonumber` without a base (that conversion is in `Num`), `select('#', ...)` |
| `MemBuf` | `ravicomp/src/membuf.c` 37-142, `src/ravi_membuf.c` 16-90 | formatting itself (the text is given), the printing of doubles, sizes near 2^64, failed allocation, `membuff_rewindpos` |
| `Zio` | `src/lzio.c` 23-67, `src/lzio.h` 20, 55-61 | readers that raise errors or depend on the state of the program |
| `MathLib` | `src/lmathlib.c` 29-38, 86-153, 162-167, 206-231 | strings as arguments, `fmod`/`fabs` of floats and the transcendental functions (C library) |
| `Mem` | `src/lmem.c` 48-99, `src/lmem.h` 62-64, `src/lstate.c` 94-101 | the contents of blocks, sums over 2^63, `luaM_toobig`, which blocks a collection frees (in `GC`) |
| `Unused` | `ravicomp/src/opt_unusedcode.c` 38-91 | construction of the graph (`construct_cfg`), memory of removed instructions, the walk over nested functions |
| `CArray` | `ravicomp/src/allocate.h` 72-94, `ravicomp/src/allocate.c` 58-94 | overflow of sizes, failure of `realloc` (abort), bytes inside an element |
| `Cfg` | `ravicomp/src/cfg.c` 35-55 | the recursion over nested functions, which blocks the linearizer makes |
| `Path` | `src/lauxlib.c` 1020-1040, `src/loadlib.c` 473-526 | files that change during the search, the loaders that use the file found |
| `Trace` | `src/lauxlib.c` 110-153, `src/ldebug.c` 117-131 | the text written about one call (`pushfuncname`, `lua_getinfo`) |
| `IoRead` | `src/liolib.c` 475-577 | read errors, the format `n` (`read_number`), negative counts, locks |
| `IoNum` | `src/liolib.c` 385-472 | locales other than "C", the conversion of the text |
| `IoMode` | `src/liolib.c` 34-44 | what the C library does with a mode |
| `PtrList` | `ravicomp/src/ptrlist.c` 22-398, the loop macros of `ptrlist.h` | sort, several allocators, allocation failure, width of the bit-fields |
| `Assign` | `lparser.c` 750-771, 1843-1922, `luaK_storevar` (`lcode.c` 1027-1068) for variables without type annotations | `...` on the right, specialised stores, `checklimit` |
| `Parse` | the expression part of `lparser.c` (1070-1213, 1393-1403, 1529-1820): tokens to trees | function bodies, checks that depend on the context, limits other than the nesting |
| `Scope` | `lparser.c` 386-624, 882-945, 991-1040, 2499-2511: variables, upvalues, blocks, functions | types, labels and gotos, code |
| `Lex` | `llex.c` | the float reader is a parameter |
| `Code`, `Typed`, `Defer` | jump lists, instruction words, `luaK_nil`; type inference and specialised opcodes for typed locals and upvalues; scopes with deferred functions | statements other than those; expressions are in `ExpCode` |
| `Call`, `Stack`, `StackMem`, `Upval`, `Defer`, `TmCache` | calls and returns, API stack functions, reallocation of stack and CallInfo list, upvalues, error unwinding with deferred functions, metamethod cache and lookup chains | hooks, yields across C calls, the debug library |
| `Dump` | `ldump.c`, `lundump.c`, `luaD_protectedparser` as far as modes and prefixes go | interaction of loading with the collector |
| `GC` | incremental mode of `lgc.c`: marking, atomic phase with weak tables, ephemerons and finalizers, sweeping, all barriers and the operations that execute them | generational mode; pacing (`setpause`, debt); memory sizes; shrinking of stacks and of the string table; the order of finalizers |
| `BitSet`, `Graph`, `Dom`, `Dataflow`, `HashTab`, `ChunkId` | the named files of `ravicomp`, `luaO_chunkid` | the rest of `ravicomp` |

Recursion of the C code that has no bound in the code is modelled with a step bound whose exhaustion is a separate outcome. In `GC` only runs in
which the bound suffices are considered, and every bound may be chosen at every step.

## The collector (C44)

A state (`GC.G`) has objects with colours and ages, upvalues that are shared cells, the object lists, the gray lists, roots and phase. A step is
an operation of the program (`Op`, with the barrier the C code executes at that place), one `singlestep`, the two shortcuts of a full collection,
or a call of a finalizer. `Valid` says which operations a program can do: its operands must be accessible (`Acc`, which includes weak references
and dead stack slots, so that the theorem covers programs that read them). The chain of files is
`Mark` (marking one object keeps the tri-colour invariant) → `Trav` (traversals) → `Atomic`, `Clear`, `AtomicEnd` → `Core` (after the atomic phase
marked objects refer to marked ones only) → `Sweep` → `Ops`, `Exec`, `Run` (every operation keeps the invariant) → `Frame`, `Strong` (collector steps
leave strongly reachable objects unchanged) → `Garbage`, `GarbageOps`, `GarbageRun` (what cannot be reached stays white, and is freed).

The safety half needs one exclusion, `Missed`; the liveness half one, open upvalues of unreachable threads. Both are shown to be necessary by
concrete runs.

## Where the code does not do what the property says

Each of these is a theorem about the model (name in brackets), with a concrete witness.

* `x >> minint` negates minint in signed arithmetic (C02).
* `for i = a, 0/0, -1` never ends; loops up to maxint never end; specialised loops truncate the step to a C `int`, and overflow at minint; float loops
  start at `(init - step) + step` and can get stuck at 2^53 (C08, C50, C51).
* `for i = 1, #t/2 do` raises "TOINT: integer expected" when `#t` is odd: `exp1` (lparser.c 2054-2066) looks only at the first
  token of the expression (C80).
* The constructor of a typed array with more than 50 items takes the elements from the 51st on from registers above those of the constructor, which may be outside the frame (C85).
* `recover` keeps the pointer `oldtop` over `luaF_close`, which may run deferred functions and move the stack, and ignores the new status that `luaF_close` returns; `luaD_pcall` does both right. By reading; deferred functions in coroutines are not modelled.
* `auxresume` tells a finished coroutine by `lua_gettop(co) == 0`, which also holds for a coroutine that waits in a function of `coroutine.wrap` called without arguments: the message is then "cannot resume dead coroutine" instead of "non-suspended". By reading; `wrap` is not modelled in `Coro`.
* `luaV_fastget` and `luaV_fastgeti` (`lvm.h` 83-99) test `ttistable`, which holds for typed arrays too (`lobject.h` 710), and then use `hvalue`: a typed array as `__index` or `__newindex` handler, `lua_getfield`/`lua_setfield` on a typed array, and a method call with a name of more than 40 bytes on a typed array read (and write) a `RaviArray` as if it were a `Table`. Proved: `Verif.Meta.index_array_handler`, `newindex_array_handler`, `self_array`.
* The compiler library divides integers with C's `/` (`codegen.c` 1727-1768, 3174): `i / 2` with an integer variable that is 7 is 3.0, `i / 0` is undefined. Proved: `Verif.Lin.divide_wrong`, `divide_by_zero`.
* Integer `+`, `-`, `*` and unary minus are emitted on the signed type: overflow, which wraps around in Lua, is undefined behaviour in the generated C (also for untyped operands). Proved: `Verif.Lin.overflow_ub`, `negate_overflow_ub`.
* An indexed load that is a left operand is emitted after the code of the right operand, and `a > b`, `a >= b` load `b` first: metamethods are called in another order than the interpreter calls them. Proved: `Verif.Lin.order_wrong`, `compare_order_wrong`.
* `pseudo_gen_alloc` (`linearizer.c` 145-176) has no bounds check: a sum of more than 256 variables writes outside the set of registers. Proved: `Verif.Lin.temporaries_overrun`.
* Multiple assignment in the compiler library: `a, b = b, a` with integer or number variables gives both the old `b` (`copy_to_temp_if_necessary` copies only variables in Lua registers); `i, t[i] = 1, 2` stores at the new `i`; an untyped float with an integral value assigned to an integer variable is only checked, and its bytes are copied; a captured typed variable without a value becomes nil; `t.x, t.y = 1` fails an assertion. Proved: `Verif.Lin.swap_wrong`, `key_wrong`, `toint_wrong`, `init_wrong`, `init_asserts`.
* Conditions of static type integer or number are refused by the code generator (`while i do`), or fail an assertion (`repeat … until i`). Proved: `Verif.LinStmt.while_integer_rejected`, `repeat_integer_asserts`.
* A numeric `for` in the compiler library computes `init - step` and `var + step` on the signed type: `for x = math.mininteger, 0` is undefined behaviour from the start. Loops over floats are refused. Proved: `Verif.LinStmt.for_start_ub`, `for_step_ub`, `for_float_rejected`.
* `bit.rol(x, 0)` and `bit.ror(x, 32)` shift a 32-bit value by 32; `bit.tohex(x, -2^31)` negates INT_MIN and passes a negative length on. Proved: `Verif.BitOp.rol_zero_ub`, `tohex_ub`.
* `membuff_add_fstring` and `membuff_add_vfstring` (`src/ravi_membuf.c`) cut a text at 1023 bytes without an error. Proved: `Verif.MemBuf.membuff_cuts`. The compiler library's `raviX_buffer_add_fstring` does not.
* `zgetc` decrements an unsigned counter before it looks for more input; after it returned `EOZ` the counter is 2^64 - 1, and another `zgetc` reads past the piece. Proved: `Verif.Zio.getc_after_end_ub`. The lexer does not call it again.
* `array_push` (ravicomp/src/allocate.h:78-87) increases the capacity before it calls `raviX_realloc_array` with that capacity as the old *and* the new size. With assertions compiled in, `assert(new_n > old_n)` fails at the first push, so the data-flow solver and the liveness analysis, when used, abort; with `NDEBUG` pushes work but the new places are not zeroed. Proved: `Verif.CArray.pushAll_asserts`, `push_full_asserts`, `push_not_zeroed`.
* The removal of unreachable blocks looks at predecessors only, so a loop that nothing reaches is kept. Proved: `Verif.Unused.loop_stays`.
* A block that is empty and that nothing jumps to gets no node, and the removal of unreachable blocks then uses a null pointer. Proved: `Verif.Cfg.empty_block_ub`. The linearizer as read ends every block that it starts, so only the exit block is empty.
* `luaL_gsub` with an empty pattern never ends (`Verif.Path.addgsub_empty`); its callers never give one. `package.searchpath` and `require` cut a name at a zero byte, so that `require "a\0b"` loads the file of `a` under another name (`Verif.Path.zero_byte_cut`).
* `debug.traceback` casts its level to `int` without a check; with the largest `int`, `level++` overflows, and with the smallest, `last - level` does. Proved: `Verif.Trace.traceback_level_ub`.
* A typed array's index is taken modulo 2^32, and a fixed array of fewer than 12 elements grows (C15, C17); `next` with maxint overflows (C14).
* A typed array reached through a chain of `__index`/`__newindex` is accessed as a table (`TmCache.array_as_index`).
* `table.insert` with `__len` = maxint overflows (C28).
* `utf8` decoding shifts a 32-bit value by 35 (C21); `utf8.codes` skips stray continuation bytes (C54).
* `math.randomseed(maxint)`, NaN and infinity reach an undefined cast (C58); `bit32` shifts by minint and fields beyond the integer range (C39).
* `fixjump` accepts an offset that does not fit (C55).
* `local t = {} and 5` leaves the table in `t`; `("x".."y") and 2` overwrites the variable in register 0 (C74: operands whose type is known to be
  true, or false, are neither discharged nor freed).
* The compiler library folds `-1 >> 1` to -1 (the VM computes maxint), overflows on constant `maxint + 1`, and rejects programs that contain `1//0` (C73).
* The compiler library records the constant -0.0 as 0.0 if 0.0 came first, gives the 65537th string constant the slot of the first, and hashes negative
  and large floats with an undefined conversion (C71); `"and\0x"` gets the number of the keyword `and` (C70).
* Fast C functions ignore the number of results wanted (C47).
* Typed locals can hold values of other types: eleven programs (C38).
* `coroutine.resume` drops deferred functions of a coroutine that dies; `pcall` inside a coroutine writes through a dangling pointer when a deferred
  function grows the stack (C33).
* `stacklevel` is wrong after the CallInfo list has been shrunk (C45).
* A crafted binary chunk overflows the upvalue vector, or has NULL constants; unknown constant types become nil (C31).
* `@s`, `@tab` and other prefixes of built-in names are taken for the built-in (C66).
* A `gmatch` iterator loses its recursion limit after an error (C68); `string.find` accepts a pattern with `)` that `string.match` rejects (C67).
* Pointer lists: deleting or inserting in a reverse loop skips elements; `RECURSE_PTR_REVERSE` sees wrong elements; `last` reads outside the node after
  `undo_last`; inserting before every element never ends; an insertion that splits a node with deleted marks hides the elements after the mark (C81).
* Bit sets: stale words after clear and copy, wrong change flag (C41). Graphs: node list overflow at 65528 (C59); NULL dereference in edge
  classification (C60). Dominators: array overrun with sparse numbers (C42). Data flow: every node is handled at most twice, user data never passed (C61).
* Collector: a new metatable of a visited all-weak table is freed while in use; the value of a captured variable of an unreachable thread survives a
  cycle (C44).

## Axioms

`#print axioms` on every theorem named in `MANIFEST.json` reports a subset of `propext`, `Classical.choice`, `Quot.sound`. `vcheck` checks this for
all theorems of the project. There is no `sorry`, no `native_decide`, no `bv_decide` and no `axiom` in the sources.
