{
 "claims": [
  {
   "property": "C01",
   "status": "proved",
   "theorems": [
    "Verif.Arith.idiv_floor",
    "Verif.Arith.idiv_exact",
    "Verif.Arith.mod_floor",
    "Verif.Arith.division_law",
    "Verif.Arith.div_by_zero"
   ],
   "note": "all 64-bit operands; C division modelled as partial"
  },
  {
   "property": "C02",
   "status": "partial",
   "theorems": [
    "Verif.Arith.shl_spec",
    "Verif.Arith.shr_spec_partial",
    "Verif.Arith.shr_minint_undefined"
   ],
   "note": "false for x >> minint: the code negates minint in signed arithmetic (undefined); everything else proved"
  },
  {
   "property": "C03",
   "status": "proved",
   "theorems": [
    "Verif.Arith.ring_ops",
    "Verif.Arith.bit_ops"
   ],
   "note": ""
  },
  {
   "property": "C04",
   "status": "proved",
   "theorems": [
    "Verif.Arith.int2fb_least",
    "Verif.Arith.int2fb_bounds",
    "Verif.Arith.int2fb_mono",
    "Verif.Arith.int2fb_fb2int",
    "Verif.Arith.int2fb_byte"
   ],
   "note": "sizes below 2^31 (the compiler counts elements in a signed int)"
  },
  {
   "property": "C05",
   "status": "proved",
   "theorems": [
    "Verif.Arith.ceillog2_least"
   ],
   "note": ""
  },
  {
   "property": "C06",
   "status": "proved",
   "theorems": [
    "Verif.Float.lt_exact",
    "Verif.Float.le_exact",
    "Verif.Float.eq_exact",
    "Verif.Float.order_laws"
   ],
   "note": "Exact values are rationals with two infinities; NaN has no value."
  },
  {
   "property": "C07",
   "status": "proved",
   "theorems": [
    "Verif.Float.flttointeger_exact"
   ],
   "note": "All three rounding modes; the result is never ub (no out-of-range cast)."
  },
  {
   "property": "C08",
   "status": "partial",
   "theorems": [
    "Verif.For.int_loop_partial",
    "Verif.For.int_loop_overflow_wraps",
    "Verif.For.nan_limit_never_ends",
    "Verif.For.loop_to_maxint_never_ends",
    "Verif.For.step_zero"
   ],
   "note": "Exact for every numeric limit except NaN with negative step, for which the code enters the loop and never ends (nan_limit_never_ends). Overflow of the control variable is characterised (wraps and continues)."
  },
  {
   "property": "C09",
   "status": "proved",
   "theorems": [
    "Verif.Table.table_is_finite_map",
    "Verif.Table.table_read_after_write",
    "Verif.Table.table_step_progress",
    "Verif.Table.table_bad_keys"
   ],
   "note": "Any history of raw assignments, constructor growth and dead-key marking, any hash function; sizes and chain links exact; element counters are naturals; allocation succeeds."
  },
  {
   "property": "C10",
   "status": "proved",
   "theorems": [
    "Verif.Table.table_ops_terminate_in_bounds"
   ],
   "note": "Outcome ub of the model is exactly out-of-bounds access or an endless chain walk; covers get, set, resize, next, length."
  },
  {
   "property": "C100",
   "status": "proved",
   "theorems": [
    "Verif.Mem.count_exact",
    "Verif.Mem.realloc_null",
    "Verif.Mem.errmem_keeps",
    "Verif.Mem.setdebt_exact"
   ],
   "note": "The callers tell the right size of an old block (that is the allocator's contract; a wrong one is undefined in the model); sums stay below 2^63."
  },
  {
   "property": "C101",
   "status": "proved",
   "theorems": [
    "Verif.Mem.growaux_spec",
    "Verif.Mem.vector_spec"
   ],
   "note": "Limits from 4 to MAX_INT, as all in the code are; allocation does not fail here."
  },
  {
   "property": "C102",
   "status": "proved",
   "theorems": [
    "Verif.Unused.removal_safe",
    "Verif.Unused.same_runs",
    "Verif.Unused.loop_stays"
   ],
   "note": "Assumes that every block has a node in the graph. loop_stays: a loop that nothing reaches is not removed, although the pass is meant to remove unreachable blocks; it does no harm."
  },
  {
   "property": "C103",
   "status": "partial",
   "theorems": [
    "Verif.CArray.push_full_asserts",
    "Verif.CArray.pushAll_asserts",
    "Verif.CArray.push_holds_partial",
    "Verif.CArray.pushAll_holds_partial",
    "Verif.CArray.push_not_zeroed",
    "Verif.CArray.clear_holds",
    "Verif.CArray.realloc_zeroes",
    "Verif.CArray.delElems_exact",
    "Verif.CArray.delElems_past"
   ],
   "note": "False with assertions compiled in: array_push hands the new capacity to raviX_realloc_array as the old one, so its assertion fails at the first push (pushAll_asserts). Proved for builds with NDEBUG; there the new places are not zeroed (push_not_zeroed)."
  },
  {
   "property": "C104",
   "status": "proved",
   "theorems": [
    "Verif.Cfg.construct_exact",
    "Verif.Cfg.construct_total",
    "Verif.Cfg.construct_remove",
    "Verif.Cfg.empty_block_ub"
   ],
   "note": "construct_remove assumes that only the exit block is empty, as the linearizer leaves it; empty_block_ub shows that this is needed."
  },
  {
   "property": "C105",
   "status": "proved",
   "theorems": [
    "Verif.Path.gsub_replaces",
    "Verif.Path.Replaced.unique",
    "Verif.Path.gsub_byte",
    "Verif.Path.searchpath_exact",
    "Verif.Path.searchpath_dot",
    "Verif.Path.addgsub_empty",
    "Verif.Path.zero_byte_cut"
   ],
   "note": "The set of files that can be opened does not change during a search. addgsub_empty: luaL_gsub with an empty pattern, which searchpath avoids, never ends. zero_byte_cut: a name is cut at a zero byte."
  },
  {
   "property": "C106",
   "status": "proved",
   "theorems": [
    "Verif.Trace.getstack_exact",
    "Verif.Trace.lastlevel_exact",
    "Verif.Trace.traceback_exact",
    "Verif.Trace.traceback_no_overlap",
    "Verif.Trace.traceback_level_ub"
   ],
   "note": "The stack limit keeps the number of calls under 2^28. traceback_level_ub: with the largest or the smallest int as level, which debug.traceback does not exclude, an int overflows. What is written about one call is not modelled."
  },
  {
   "property": "C107",
   "status": "proved",
   "theorems": [
    "Verif.IoRead.readLine_exact",
    "Verif.IoRead.readAll_exact",
    "Verif.IoRead.readCount_exact",
    "Verif.IoRead.readOne_keeps",
    "Verif.IoRead.gread_exact",
    "Verif.IoRead.allLines_exact"
   ],
   "note": "Without read errors; the format n and negative counts are not modelled."
  },
  {
   "property": "C108",
   "status": "proved",
   "theorems": [
    "Verif.IoNum.readNumber_keeps",
    "Verif.IoNum.readNumber_integer",
    "Verif.IoNum.readNumber_long"
   ],
   "note": "In the C locale. The conversion of the text (lua_stringtonumber) is in C20."
  },
  {
   "property": "C109",
   "status": "proved",
   "theorems": [
    "Verif.IoMode.checkmode_exact"
   ],
   "note": "The manual allows at most one b; the code allows any number."
  },
  {
   "property": "C11",
   "status": "proved",
   "theorems": [
    "Verif.Table.next_visits_each_once",
    "Verif.Table.next_enumerates_map",
    "Verif.Table.next_returns_current"
   ],
   "note": "Traversal with adversarial assignments to existing fields and dead-key marking between calls."
  },
  {
   "property": "C12",
   "status": "proved",
   "theorems": [
    "Verif.Table.length_is_border"
   ],
   "note": "Includes the overflow branch of unbound_search."
  },
  {
   "property": "C13",
   "status": "proved",
   "theorems": [
    "Verif.Table.rehash_array_size_optimal",
    "Verif.Table.computesizes_optimal"
   ],
   "note": "The second theorem covers the reported number of array keys."
  },
  {
   "property": "C14",
   "status": "proved",
   "theorems": [
    "Verif.RArray.typed_arrays_memory_safe",
    "Verif.RArray.typed_arrays_match_spec",
    "Verif.RArray.get_after_set",
    "Verif.RArray.set_by_index",
    "Verif.RArray.next_maxint_is_ub"
   ],
   "note": "All histories of array operations. next with key maxinteger is undefined behaviour in the code (signed overflow), shown by next_maxint_is_ub and excluded from legal histories."
  },
  {
   "property": "C15",
   "status": "partial",
   "theorems": [
    "Verif.RArray.dynamic_array_is_sequence_mod32",
    "Verif.RArray.dynamic_array_is_sequence_partial",
    "Verif.RArray.typed_array_index_wraps"
   ],
   "note": "Full behaviour proved with indexes modulo 2^32; as a sequence indexed by the integer itself for indexes 0..2^32-1. For larger or negative indexes the property is false: a[2^32+1] is a[1] (typed_array_index_wraps)."
  },
  {
   "property": "C16",
   "status": "proved",
   "theorems": [
    "Verif.RArray.slice_created_iff",
    "Verif.RArray.slice_aliases_parent",
    "Verif.RArray.slice_storage_pinned",
    "Verif.RArray.typed_arrays_match_spec"
   ],
   "note": ""
  },
  {
   "property": "C17",
   "status": "partial",
   "theorems": [
    "Verif.RArray.fixed_length_kept_partial",
    "Verif.RArray.small_fixed_array_grows"
   ],
   "note": "True for n >= 12. For smaller n it is false: table.intarray(1) grows when a[2] is assigned (small_fixed_array_grows); length stays between n and max(n,12)."
  },
  {
   "property": "C18",
   "status": "proved",
   "theorems": [
    "Verif.StrTab.string_table_safe",
    "Verif.StrTab.short_strings_unique",
    "Verif.StrTab.intern_spec"
   ],
   "note": "All histories, including collections inside allocations; which objects die is an arbitrary input."
  },
  {
   "property": "C19",
   "status": "proved",
   "theorems": [
    "Verif.StrCmp.strcmp_order",
    "Verif.StrCmp.less_exact",
    "Verif.StrCmp.strings_total_order"
   ],
   "note": "l_strcmp in the C locale (strcoll = strcmp)"
  },
  {
   "property": "C20",
   "status": "proved",
   "theorems": [
    "Verif.Num.str2int_exact",
    "Verif.Num.str2int_dec",
    "Verif.Num.str2int_hex",
    "Verif.Num.int2str_roundtrip",
    "Verif.Num.int2str_fits",
    "Verif.Num.tonumberBase_exact",
    "Verif.Num.ctype_classes"
   ],
   "note": "snprintf(%lld) and the libc classifiers modelled by their specification; the float converter is not modelled"
  },
  {
   "property": "C21",
   "status": "proved",
   "theorems": [
    "Verif.Utf8.char_enc",
    "Verif.Utf8.decode_enc",
    "Verif.Utf8.decode_enc_valid",
    "Verif.Utf8.decode_sound",
    "Verif.Utf8.decode_total",
    "Verif.Utf8.decode_undefined_shift"
   ],
   "note": "Decoding stays inside the string object; the one undefined operation (32-bit shift by 35 for 0xFF followed by seven continuation bytes) is exhibited by decode_undefined_shift and shown to be the only one."
  },
  {
   "property": "C22",
   "status": "proved",
   "theorems": [
    "Verif.StrLib.sub_correct",
    "Verif.StrLib.byte_correct",
    "Verif.StrLib.char_correct",
    "Verif.StrLib.char_byte_roundtrip",
    "Verif.StrLib.reverse_correct"
   ],
   "note": "all 64-bit indices; argument checking by luaL_check* not modelled"
  },
  {
   "property": "C23",
   "status": "proved",
   "theorems": [
    "Verif.StrLib.rep_correct"
   ],
   "note": "exact condition for success and failure, size equals bytes written"
  },
  {
   "property": "C24",
   "status": "proved",
   "theorems": [
    "Verif.Pack.signed_roundtrip",
    "Verif.Pack.unsigned_roundtrip",
    "Verif.Pack.unpack_signed",
    "Verif.Pack.unpack_unsigned",
    "Verif.Pack.pack_int_iff"
   ],
   "note": "every size from 1 on, both byte orders, any surrounding data; unpackint is the two's complement value or an error when it does not fit a Lua integer"
  },
  {
   "property": "C25",
   "status": "proved",
   "theorems": [
    "Verif.Pat.matcher_exact",
    "Verif.Pat.matcher_defined",
    "Verif.Pat.doMatch_good",
    "Verif.Pat.match_exact",
    "Verif.Pat.mem_all",
    "Verif.Pat.closes_iff",
    "Verif.Pat.run_iff",
    "Verif.Pat.doMatch_safe",
    "Verif.Pat.class_eq",
    "Verif.Pat.setLoop_eq",
    "Verif.Pat.parseSingle_eq",
    "Verif.Pat.sem_inv"
   ],
   "note": "The matcher returns the preferred match of a declarative semantics of parsed patterns (sound and complete), captures lie within the subject, and no pattern (malformed included) causes an access outside subject or pattern; the C character classes are those of the C locale"
  },
  {
   "property": "C26",
   "status": "proved",
   "theorems": [
    "Verif.StrLib.findPlain_correct"
   ],
   "note": "lmemfind and the plain branch of str_find_aux"
  },
  {
   "property": "C27",
   "status": "proved",
   "theorems": [
    "Verif.Sort.sort_permutes",
    "Verif.Sort.sort_sorts",
    "Verif.Sort.sort_too_big"
   ],
   "note": "For arrays accessed without metamethods, an order function with arbitrary answers, errors and state, and any random pivot choice. Order function that modifies the array being sorted, or yields, is not modelled."
  },
  {
   "property": "C28",
   "status": "proved",
   "theorems": [
    "Verif.TabLib.insert_correct",
    "Verif.TabLib.append_correct",
    "Verif.TabLib.remove_correct",
    "Verif.TabLib.remove_past_end",
    "Verif.TabLib.remove_out_of_range",
    "Verif.TabLib.remove_insert",
    "Verif.TabLib.insert_list",
    "Verif.TabLib.insert_ub_at_maxint"
   ],
   "note": "raw tables of length below maxinteger; for a length of maxinteger (through __len) the code computes maxinteger+1, shown undefined"
  },
  {
   "property": "C29",
   "status": "proved",
   "theorems": [
    "Verif.TabLib.move_correct"
   ],
   "note": "raw tables; all 64-bit f, e, t"
  },
  {
   "property": "C30",
   "status": "proved",
   "theorems": [
    "Verif.Code.createABC_get",
    "Verif.Code.createABx_get",
    "Verif.Code.createAx_get",
    "Verif.Code.set_get",
    "Verif.Code.set_endian",
    "Verif.Code.sBx_roundtrip",
    "Verif.Code.sBx_range",
    "Verif.Code.rk_correct",
    "Verif.Code.rk_total"
   ],
   "note": "All accessor macros of lopcodes.h on 32-bit words, on both byte orders (byte and half-word stores modelled in memory)."
  },
  {
   "property": "C31",
   "status": "proved",
   "theorems": [
    "Verif.Dump.load_dump",
    "Verif.Dump.load_dump_same",
    "Verif.Dump.dump_injective",
    "Verif.Dump.loadZ_load",
    "Verif.Dump.write_all",
    "Verif.Dump.write_collect",
    "Verif.Dump.write_fail",
    "Verif.Dump.strip_fields",
    "Verif.Dump.strip_locvars",
    "Verif.Dump.strip_local_types",
    "Verif.Dump.strip_idem",
    "Verif.Dump.load_truncated",
    "Verif.Dump.load_empty",
    "Verif.Dump.load_overflow",
    "Verif.Dump.load_null_constant",
    "Verif.Dump.load_unknown_constant",
    "Verif.Dump.fuel_irrelevant",
    "Verif.Dump.getlocalname_active",
    "Verif.Dump.zgetc_spec"
   ],
   "note": "All prototypes (any nesting, sizes below 2^31) by structural induction; every non-empty strict prefix is rejected as truncated, the empty one is an empty text chunk (load_empty). The stream theorem covers readers that deliver the chunk in arbitrary pieces. Crafted chunks can overflow the upvalue vector (load_overflow)."
  },
  {
   "property": "C32",
   "status": "proved",
   "theorems": [
    "Verif.Upval.variables_are_cells",
    "Verif.Upval.same_variable_iff",
    "Verif.Upval.sharing_kept",
    "Verif.Upval.write_seen",
    "Verif.Upval.local_shared_iff",
    "Verif.Upval.close_keeps"
   ],
   "note": "luaF_findupval, luaF_close (without the calls of deferred functions, C33), getcached/pushclosure, luaF_initupvals, luaC_upvdeccount/freeLclosure, lua_upvaluejoin/upvalueid and OP_RAVI_DEFER refine a semantics in which every local variable is a cell; no history touches a freed upvalue. Coroutine stacks are threads; stack reallocation is C45."
  },
  {
   "property": "C33",
   "status": "partial",
   "theorems": [
    "Verif.Defer.refines",
    "Verif.Defer.refines_unique",
    "Verif.Defer.nested",
    "Verif.Defer.exactly_once_partial",
    "Verif.Defer.block_done",
    "Verif.Defer.defined_partial",
    "Verif.Defer.recover_dangling",
    "Verif.Defer.resume_loses",
    "Verif.Defer.wrap_calls"
   ],
   "note": "Parser (marks, blocks, insidetbc, closes of jumps and returns) and machine (open upvalue list, luaF_close, calldeferredfunction, luaD_pcall, recover, resume, wrap) refine a source-level semantics; the events form a properly nested word and each deferred function is called exactly once for every program that finishes. The full statement is false: coroutine.resume drops the deferred functions of a coroutine that dies (resume_loses), and pcall inside a coroutine writes through a dangling pointer when a deferred function grows the stack (recover_dangling). Not modelled: yields, goto, for, JIT, memory errors; that the machine finishes whenever the source does."
  },
  {
   "property": "C34",
   "status": "proved",
   "theorems": [
    "Verif.Ref.ref_unique",
    "Verif.Ref.ref_nil",
    "Verif.Ref.ref_reuse"
   ],
   "note": "All histories with fewer than 2^31 references; lua_rawlen may return any border."
  },
  {
   "property": "C35",
   "status": "proved",
   "theorems": [
    "Verif.Buf.buffer_correct",
    "Verif.Buf.buffer_succeeds"
   ],
   "note": "All operation sequences, allocators and initial sizes; size_t arithmetic wraps; the maximum string length is not modelled."
  },
  {
   "property": "C36",
   "status": "proved",
   "theorems": [
    "Verif.Stack.rotate_spec",
    "Verif.Stack.rotate_inverse",
    "Verif.Stack.insert_spec",
    "Verif.Stack.remove_spec",
    "Verif.Stack.replace_spec"
   ],
   "note": "lua_rotate and its macros on any stack; pseudo-indices not modelled"
  },
  {
   "property": "C37",
   "status": "proved",
   "theorems": [
    "Verif.TmCache.cache_invisible",
    "Verif.TmCache.fasttm_raw",
    "Verif.TmCache.handlers",
    "Verif.TmCache.array_as_index"
   ],
   "note": "Simulation between runs with and without the cache, over any history of table operations, raw stores, metatable changes, collector lookups and weak clearing; handlers: the documented names are the ones found; array_as_index: a typed array reached through __index is accessed as a table (undefined)"
  },
  {
   "property": "C38",
   "status": "partial",
   "theorems": [
    "Verif.Typed.conv_type",
    "Verif.Typed.conv_keeps",
    "Verif.Typed.conv_accepts",
    "Verif.Typed.typed_variables_partial",
    "Verif.Typed.static_type_partial",
    "Verif.Typed.setupvalue_typed",
    "Verif.Typed.setupvalue_stores",
    "Verif.Typed.setlocal_typed",
    "Verif.Typed.upvaluejoin_partial",
    "Verif.Typed.or_store",
    "Verif.Typed.or_array",
    "Verif.Typed.or_assert",
    "Verif.Typed.assert_in_place",
    "Verif.Typed.dots_unchecked",
    "Verif.Typed.assert_then_call",
    "Verif.Typed.usertype_init",
    "Verif.Typed.usertype_up",
    "Verif.Typed.join_usertype",
    "Verif.Typed.stale_constructor",
    "Verif.Typed.assign_changes_source",
    "Verif.Typed.loaded_upvalue",
    "Verif.Typed.number_metamethod",
    "Verif.Typed.setlocal_temporary",
    "Verif.Typed.assertion_type",
    "Verif.Typed.setupvalue_usertype"
   ],
   "note": "Every conversion instruction gives a value of its type or an error; programs without the patterns excluded by goodS keep every typed local and upvalue at its type, for runs of any length, with calls and shared variables changed by other code, and never reach a specialised instruction with operands of another type; setupvalue and setlocal keep the types. The full claim is false: eleven concrete programs (x or y stored in a typed local, @integer on a number variable, extra values of ..., user types, dumped functions and others) are proved to store or read a value of another type."
  },
  {
   "property": "C39",
   "status": "partial",
   "theorems": [
    "Verif.Bit32.band_correct",
    "Verif.Bit32.bor_correct",
    "Verif.Bit32.bxor_correct",
    "Verif.Bit32.bnot_correct",
    "Verif.Bit32.btest_correct",
    "Verif.Bit32.lshift_partial",
    "Verif.Bit32.rshift_partial",
    "Verif.Bit32.arshift_partial",
    "Verif.Bit32.lrotate_correct",
    "Verif.Bit32.rrotate_partial",
    "Verif.Bit32.extract_correct",
    "Verif.Bit32.replace_correct",
    "Verif.Bit32.field_errors",
    "Verif.Bit32.shifts_undefined",
    "Verif.Bit32.field_undefined"
   ],
   "note": "All functions proved for all arguments except where the code is undefined: the most negative displacement (shifts_undefined) and field+width beyond the integer range (field_undefined)."
  },
  {
   "property": "C40",
   "status": "proved",
   "theorems": [
    "Verif.Random.random_uniform",
    "Verif.Random.random_in_range",
    "Verif.Random.random_reaches",
    "Verif.Random.random_empty"
   ],
   "note": "Generator outputs are arbitrary 64-bit words; uniformity is stated through the exact acceptance rule modulo a power of two."
  },
  {
   "property": "C41",
   "status": "partial",
   "theorems": [
    "Verif.BitSet.create_correct",
    "Verif.BitSet.bitP_correct",
    "Verif.BitSet.setBit_correct_partial",
    "Verif.BitSet.setBit_inside",
    "Verif.BitSet.clearBit_correct",
    "Verif.BitSet.range_correct_partial",
    "Verif.BitSet.clear_correct",
    "Verif.BitSet.copy_correct",
    "Verif.BitSet.equal_correct",
    "Verif.BitSet.intersect_correct",
    "Verif.BitSet.empty_correct",
    "Verif.BitSet.count_correct",
    "Verif.BitSet.next_correct",
    "Verif.BitSet.iterate_correct",
    "Verif.BitSet.op2_correct",
    "Verif.BitSet.op3_correct",
    "Verif.BitSet.and_bitwise",
    "Verif.BitSet.ior_bitwise",
    "Verif.BitSet.and_compl_bitwise",
    "Verif.BitSet.ior_and_bitwise",
    "Verif.BitSet.ior_and_compl_bitwise",
    "Verif.BitSet.clear_resurrects",
    "Verif.BitSet.copy_resurrects",
    "Verif.BitSet.op2_flag_wrong",
    "Verif.BitSet.history_correct_partial"
   ],
   "note": "Every operation is proved to be the set operation on clean sets, and histories of them by induction. The full claim is false for histories with clear, with copy, or with operations into a longer destination: stale words come back (witnesses proved)."
  },
  {
   "property": "C42",
   "status": "partial",
   "theorems": [
    "Verif.Dom.dominator_tree_correct_partial",
    "Verif.Dom.unreachable_asserts",
    "Verif.Dom.sparse_overruns"
   ],
   "note": "For all graphs with contiguous node numbers and all nodes reachable: termination and exactness. Gaps in the numbering overrun the array and a node without predecessors fails the assertion, both proved."
  },
  {
   "property": "C43",
   "status": "proved",
   "theorems": [
    "Verif.Lex.quote_roundtrip"
   ],
   "note": "Every byte string, with any text after it; lexer and %q modelled. Texts of 2^31-2 lines and more are excluded (the lexer rejects them)."
  },
  {
   "property": "C44",
   "status": "partial",
   "theorems": [
    "Verif.GC.accessible_not_freed_partial",
    "Verif.GC.collector_keeps_strong_partial",
    "Verif.GC.strong_not_freed_partial",
    "Verif.GC.garbage_freed_partial",
    "Verif.GC.weak_metatable_freed",
    "Verif.GC.garbage_kept"
   ],
   "note": "For every interleaving of program operations (with their barriers) and collector steps, everything the program can get at exists and no assertion of the collector fails, except after one kind of store, for which a freed metatable in use is exhibited (a table with weak keys and values that has been visited gets a new metatable: lapi.c:1195 has no effect because the table is gray). Collector steps leave everything that is strongly reachable in place with its contents (only weak tables lose entries). What no root, no object with a finalizer and no open upvalue leads to at the start of a cycle is freed by the end of its sweep, whatever the program does; garbage_kept shows that the exception for open upvalues of unreachable threads is needed, so that the second half of the property fails as stated."
  },
  {
   "property": "C45",
   "status": "proved",
   "theorems": [
    "Verif.StackMem.run_defined",
    "Verif.StackMem.run_same",
    "Verif.StackMem.run_bounds",
    "Verif.StackMem.check_result",
    "Verif.StackMem.api_result",
    "Verif.StackMem.shrink_result",
    "Verif.StackMem.cl_frames",
    "Verif.StackMem.cl_inv",
    "Verif.StackMem.stacklevel_partial",
    "Verif.StackMem.stacklevel_wrong"
   ],
   "note": "Refinement: over every history of pushes, calls, returns, captures, errors, stack checks and collections, with any addresses chosen by the allocator, the stack in memory agrees with a stack that never moves, stays within the limit plus the error reserve, and no operation is undefined. Finding: the debugger's stacklevel is wrong after the CallInfo list has been shrunk."
  },
  {
   "property": "C46",
   "status": "proved",
   "theorems": [
    "Verif.Concat.concat_correct",
    "Verif.Concat.concat_strings"
   ],
   "note": "luaV_concat with arbitrary stateful metamethods; allocation failures and GC not modelled"
  },
  {
   "property": "C47",
   "status": "partial",
   "theorems": [
    "Verif.Call.results_fixed_partial",
    "Verif.Call.results_multi",
    "Verif.Call.fastcall_single",
    "Verif.Call.fastcall_wrong"
   ],
   "note": "Proved for Lua and ordinary C functions for every overlap. False for fast C functions (ravi.exp, ravi.ln): with two results wanted the caller sees its own argument instead of nil (fastcall_wrong)."
  },
  {
   "property": "C48",
   "status": "proved",
   "theorems": [
    "Verif.Call.enter_frame",
    "Verif.Call.vararg_values"
   ],
   "note": "Entry and the vararg instruction, for every argument and parameter count."
  },
  {
   "property": "C49",
   "status": "proved",
   "theorems": [
    "Verif.ChunkId.chunkid_correct",
    "Verif.ChunkId.chunkid_short"
   ],
   "note": "Byte-level model with out-of-range memcpy as undefined; proved for every source and every buffer of at least 15 bytes (the code always passes 60)."
  },
  {
   "property": "C50",
   "status": "partial",
   "theorems": [
    "Verif.For.typed_loop_partial",
    "Verif.For.typed_loop_step_truncated",
    "Verif.For.typed_loop_ub"
   ],
   "note": "Holds when the step fits a C int and init - step does not overflow; otherwise refuted: the step constant is truncated to int when selecting the opcode, and init = minint is a signed overflow."
  },
  {
   "property": "C51",
   "status": "partial",
   "theorems": [
    "Verif.For.float_loop_partial",
    "Verif.For.float_loop_first_value_wrong",
    "Verif.For.float_loop_stuck"
   ],
   "note": "Holds for integral floats with all values up to 2^53; refuted in general: first value is (init-step)+step, and a loop can get stuck."
  },
  {
   "property": "C52",
   "status": "proved",
   "theorems": [
    "Verif.StrTab.cache_correct",
    "Verif.StrTab.string_table_safe"
   ],
   "note": ""
  },
  {
   "property": "C53",
   "status": "proved",
   "theorems": [
    "Verif.TabLib.concat_correct",
    "Verif.TabLib.unpack_correct",
    "Verif.TabLib.pack_unpack"
   ],
   "note": "raw tables"
  },
  {
   "property": "C54",
   "status": "partial",
   "theorems": [
    "Verif.Utf8.char_correct",
    "Verif.Utf8.len_correct",
    "Verif.Utf8.len_sound",
    "Verif.Utf8.codepoint_correct",
    "Verif.Utf8.codes_correct_partial",
    "Verif.Utf8.codes_skips_invalid"
   ],
   "note": "The converse for utf8.codes is false in the code (codes_skips_invalid: stray continuation bytes are skipped silently). utf8.offset and ranges are C83."
  },
  {
   "property": "C55",
   "status": "partial",
   "theorems": [
    "Verif.Code.jumps_resolved_partial",
    "Verif.Code.fixjump_exact",
    "Verif.Code.concat_correct",
    "Verif.Code.patchlist_correct",
    "Verif.Code.fixjump_wraps",
    "Verif.Code.long_jump_misses"
   ],
   "note": "Proved for all operation sequences of at most 32768 operations and for fixjump/concat/patchlist at any size with offsets in [-32768,32767]. The claim itself is false: fixjump accepts the offset +32768 (abs(offset) > MAXARG_sBx) which encodes as -32768; fixjump_wraps and long_jump_misses prove the violation."
  },
  {
   "property": "C56",
   "status": "proved",
   "theorems": [
    "Verif.Code.nil_correct"
   ],
   "note": "For all register ranges below MAXREGS (125) and all preceding code without pending jumps; the machine invariant (step_inv) shows pending jumps exclude merging."
  },
  {
   "property": "C57",
   "status": "proved",
   "theorems": [
    "Verif.Call.tailcall_frame",
    "Verif.Call.callmeta_args"
   ],
   "note": "Overlapping moves of OP_TAILCALL and tryfuncTM."
  },
  {
   "property": "C58",
   "status": "partial",
   "theorems": [
    "Verif.Random.nextrand_injective",
    "Verif.Random.seeded_nonzero",
    "Verif.Random.I2d_unit",
    "Verif.Random.randomseed_undefined"
   ],
   "note": "State properties proved for all states. math.randomseed is not defined for every number: randomseed_undefined shows the largest integer, NaN and infinity reach an out-of-range cast."
  },
  {
   "property": "C59",
   "status": "proved",
   "theorems": [
    "Verif.Graph.init_correct",
    "Verif.Graph.addEdge_spec",
    "Verif.Graph.deleteEdge_spec",
    "Verif.Graph.run_spec",
    "Verif.Graph.history_correct",
    "Verif.Graph.addEdge_total",
    "Verif.Graph.addEdge_full"
   ],
   "note": "addEdge_full: a full list is the undefined case (growth wraps a 16-bit count)."
  },
  {
   "property": "C60",
   "status": "partial",
   "theorems": [
    "Verif.Graph.classify_correct_partial",
    "Verif.Graph.cycle_has_backward_partial",
    "Verif.Graph.classify_null"
   ],
   "note": "Under the condition that the reset loop, whose inner counter shadows the outer one, stays within the nodes; classify_null is a graph where it follows a NULL pointer."
  },
  {
   "property": "C61",
   "status": "partial",
   "theorems": [
    "Verif.Dataflow.solve_ends_partial",
    "Verif.Dataflow.solve_unstable",
    "Verif.Dataflow.userdata_lost",
    "Verif.Dataflow.setBit_raw"
   ],
   "note": "Termination for all graphs and callbacks. Stability is false: every node is handled at most twice because raviX_bitset_clear leaves old bits behind, and the user data is never stored (proved)."
  },
  {
   "property": "C62",
   "status": "proved",
   "theorems": [
    "Verif.Pack.pack_unpack",
    "Verif.Pack.packsize_length",
    "Verif.Pack.aligned",
    "Verif.Pack.pack_defined",
    "Verif.Pack.packsize_defined",
    "Verif.Pack.unpack_defined",
    "Verif.Pack.float_bytes"
   ],
   "note": "arguments are taken as delivered by luaL_check*; the float/double conversions are parameters"
  },
  {
   "property": "C63",
   "status": "proved",
   "theorems": [
    "Verif.Lex.string_exact"
   ],
   "note": "Grammar of pieces stated independently of the lexer."
  },
  {
   "property": "C64",
   "status": "proved",
   "theorems": [
    "Verif.Lex.lexer_defined",
    "Verif.Lex.text_defined"
   ],
   "note": "Token buffer unbounded; the float reader is a parameter."
  },
  {
   "property": "C65",
   "status": "proved",
   "theorems": [
    "Verif.Lex.long_exact",
    "Verif.Lex.long_unfinished",
    "Verif.Lex.comment_exact",
    "Verif.Lex.long_roundtrip"
   ],
   "note": "Texts of fewer than 2^31-1 lines."
  },
  {
   "property": "C66",
   "status": "partial",
   "theorems": [
    "Verif.Lex.cast_partial",
    "Verif.Lex.cast_prefix_bug"
   ],
   "note": "Fails in the code: strncmp with the token's length accepts every prefix of a built-in name (@s, @tab, @). Proved for names that are not such prefixes."
  },
  {
   "property": "C67",
   "status": "proved",
   "theorems": [
    "Verif.Pat.match_leftmost",
    "Verif.Pat.find_leftmost",
    "Verif.Pat.find_defined",
    "Verif.Pat.patFind_exact",
    "Verif.Pat.plain_eq_pattern",
    "Verif.Pat.nospecials_eq",
    "Verif.Pat.find_accepts_close"
   ],
   "note": "For well-formed patterns within the recursion limit (at most 199 captures and repetitions); find_accepts_close shows a text that find accepts and match rejects"
  },
  {
   "property": "C68",
   "status": "proved",
   "theorems": [
    "Verif.Pat.gmatch_exact",
    "Verif.Pat.drain_eq",
    "Verif.Pat.scan_total",
    "Verif.Pat.scan_ordered",
    "Verif.Pat.gsub_exact",
    "Verif.Pat.replaced_unique",
    "Verif.Pat.gsub_identity",
    "Verif.Pat.gsub_count",
    "Verif.Pat.gsub_defined",
    "Verif.Pat.gmatch_limit_gone"
   ],
   "note": "Calls made by gsub are functions of the call number and the captures; gmatch_limit_gone is a defect: after one 'pattern too complex' an iterator has no recursion limit"
  },
  {
   "property": "C69",
   "status": "proved",
   "theorems": [
    "Verif.HashTab.map_refines",
    "Verif.HashTab.insert_found"
   ],
   "note": "for key comparisons that are symmetric and transitive with compatible hashes; the primality of the table sizes is checked in Sizes.lean"
  },
  {
   "property": "C70",
   "status": "proved",
   "theorems": [
    "Verif.HashTab.strings_interned",
    "Verif.HashTab.reserved_iff",
    "Verif.HashTab.reserved_zero"
   ],
   "note": "reserved_zero: a string with a zero byte after a keyword gets the keyword's number (negative result)"
  },
  {
   "property": "C71",
   "status": "partial",
   "theorems": [
    "Verif.HashTab.constants_faithful_partial",
    "Verif.HashTab.constants_zero_merged",
    "Verif.HashTab.constants_index_wraps",
    "Verif.HashTab.hash_constant_undefined"
   ],
   "note": "holds for at most 65536 literals without both zeros; the negations for the rest are proved"
  },
  {
   "property": "C72",
   "status": "proved",
   "theorems": [
    "Verif.Fold.fold_correct",
    "Verif.Fold.fold_total"
   ],
   "note": "x >> minint (C02) is the only undefined constant operation"
  },
  {
   "property": "C73",
   "status": "partial",
   "theorems": [
    "Verif.Fold.simplify_correct_partial",
    "Verif.Fold.fold_shr_negative",
    "Verif.Fold.fold_overflow",
    "Verif.Fold.fold_rejects"
   ],
   "note": "holds for expressions the pass completes on and that have no constant shift of a negative number; negations for the rest are proved"
  },
  {
   "property": "C74",
   "status": "partial",
   "theorems": [
    "Verif.ExpCode.exp_nextreg",
    "Verif.ExpCode.exp_storelocal",
    "Verif.ExpCode.exp_goiftrue",
    "Verif.ExpCode.exp_list",
    "Verif.ExpCode.exp_nextreg_partial",
    "Verif.ExpCode.exp_storelocal_partial",
    "Verif.ExpCode.exp_goiftrue_partial",
    "Verif.ExpCode.exp_list_partial",
    "Verif.ExpCode.and_leaks",
    "Verif.ExpCode.and_clobbers",
    "Verif.ExpCode.exp_nextreg_fails"
   ],
   "note": "Proved for the code generator with the short cut of luaK_goiftrue and luaK_goiffalse removed. With it, proved for expressions whose first operands of 'and' may be false and of 'or' may be true; for the others the property is false: 'local t = {} and 5' leaves the table in t, and '(\"x\"..\"y\") and 2' overwrites the variable in register 0. Calls and method calls are included; '...' is not."
  },
  {
   "property": "C75",
   "status": "proved",
   "theorems": [
    "Verif.Parse.expr_iff",
    "Verif.Parse.expr_total",
    "Verif.Parse.text_unique",
    "Verif.Parse.expr_deep",
    "Verif.Parse.expr_longest"
   ],
   "note": "subexpr and everything it calls, as a function from tokens to trees; function bodies and the checks that depend on context (varargs, user type names) are left out"
  },
  {
   "property": "C76",
   "status": "proved",
   "theorems": [
    "Verif.Scope.names_are_lexical",
    "Verif.Scope.parser_defined",
    "Verif.Scope.limits",
    "Verif.Scope.local_iff",
    "Verif.Scope.upvalue_stable",
    "Verif.Scope.proto_descriptors"
   ],
   "note": "the functions of lparser.c on variables, blocks and functions as a machine over the events of a program; types of variables and labels are not in this model"
  },
  {
   "property": "C77",
   "status": "partial",
   "theorems": [
    "Verif.Stat.func_returns",
    "Verif.Stat.func_diverges",
    "Verif.Stat.func_returns_partial",
    "Verif.Stat.func_diverges_partial",
    "Verif.Stat.func_fails",
    "Verif.Stat.ends_unique"
   ],
   "note": "Proved for the code generator with the short cut of luaK_goiftrue and luaK_goiffalse removed (see C74), and with it for functions whose conditions and operands the short cut does not affect; for the others the property is false (func_fails). Upvalues whose fields are assigned must not be changed by the metamethods and functions the assignment calls. Calls (of functions with any behaviour) and the generic for loop are included. Functions as bodies, '...', and variables captured by functions are not in this model."
  },
  {
   "property": "C78",
   "status": "proved",
   "theorems": [
    "Verif.Stat.accepted_valid",
    "Verif.Stat.refused_invalid",
    "Verif.Stat.valid_not_refused"
   ],
   "note": "validFunc states the rules of the reference manual by recursion over statements with an environment of visible labels, independently of pending gotos. Same model as C77; the errors for too many registers and for # are neither accepted nor refused here."
  },
  {
   "property": "C79",
   "status": "partial",
   "theorems": [
    "Verif.Assign.assign_does",
    "Verif.Assign.assign_does_partial",
    "Verif.Assign.assign_multi",
    "Verif.Assign.assign_multi_partial",
    "Verif.Assign.assign_fails",
    "Verif.Assign.swap",
    "Verif.Assign.field_first"
   ],
   "note": "Proved for the code generator with the short cut of luaK_goiftrue and luaK_goiffalse removed (see C74), and with it for expressions the short cut does not affect; for the others it is false (assign_fails). Calls are included (assign_multi if the last one gives several values); '...' is not in the expressions, variables have no type annotations, and fields of an upvalue are covered if no metamethod and no function called by the statement changes that upvalue (the code reads it at the store)."
  },
  {
   "property": "C80",
   "status": "partial",
   "theorems": [
    "Verif.For.for_values_partial",
    "Verif.For.for_values_fails",
    "Verif.For.hash_limit_fails",
    "Verif.For.hash_init_changes"
   ],
   "note": "False as stated: 'for i = 1, #t/2 do' raises 'TOINT: integer expected' for a table with three elements, and 'for i = #t/2, 2 do' gives i integer values instead of floats. Proved whenever the expressions that begin with '#' have integer values (or the limit a float with an integer value), and for expressions that do not begin with '#'."
  },
  {
   "property": "C81",
   "status": "partial",
   "theorems": [
    "Verif.PtrList.for_each",
    "Verif.PtrList.for_each_reverse",
    "Verif.PtrList.size_is",
    "Verif.PtrList.nth_is",
    "Verif.PtrList.linearize_is",
    "Verif.PtrList.first_last",
    "Verif.PtrList.add_appends",
    "Verif.PtrList.delete_current",
    "Verif.PtrList.replace_current",
    "Verif.PtrList.mark_deleted",
    "Verif.PtrList.insert_current",
    "Verif.PtrList.undo_last",
    "Verif.PtrList.delete_last",
    "Verif.PtrList.pack_keeps",
    "Verif.PtrList.remove_is",
    "Verif.PtrList.replace_is",
    "Verif.PtrList.concat_is",
    "Verif.PtrList.remove_all",
    "Verif.PtrList.empty_list",
    "Verif.PtrList.others_kept",
    "Verif.PtrList.insert_forever",
    "Verif.PtrList.delete_reverse_skips",
    "Verif.PtrList.recurse_reverse_wrong",
    "Verif.PtrList.empty_node_last",
    "Verif.PtrList.undo_then_last",
    "Verif.PtrList.mark_then_insert_loses",
    "Verif.PtrList.insert_reverse_stops",
    "Verif.PtrList.mark_twice_size"
   ],
   "note": "Every operation except sort is proved over a heap of nodes, with a frame condition. The parts that fail are shown by witnesses: changes inside reverse loops, RECURSE_PTR_REVERSE, last and delete_last with an empty node, insertion with deleted marks, unconditional insertion. Not modelled: raviX_ptrlist_sort."
  },
  {
   "property": "C82",
   "status": "partial",
   "theorems": [
    "Verif.ExpCode.exp_multi",
    "Verif.ExpCode.exp_multi_partial",
    "Verif.ExpCode.exp_nextreg",
    "Verif.ExpCode.exp_nextreg_partial",
    "Verif.Assign.assign_multi",
    "Verif.Assign.assign_multi_partial",
    "Verif.Stat.func_returns",
    "Verif.Stat.func_returns_partial"
   ],
   "note": "Proved for the code generator with the short cut of luaK_goiftrue and luaK_goiffalse removed (see C74), and with it for expressions the short cut does not affect. Method calls are included; '...' is not in this model. A tail call is modelled as a call whose results are returned."
  },
  {
   "property": "C83",
   "status": "proved",
   "theorems": [
    "Verif.Utf8.offset_forward",
    "Verif.Utf8.offset_backward",
    "Verif.Utf8.offset_default",
    "Verif.Utf8.offset_zero",
    "Verif.Utf8.offset_inside",
    "Verif.Utf8.offset_in_bounds",
    "Verif.Utf8.len_range",
    "Verif.Utf8.codepoint_range",
    "Verif.Utf8.codepoint_one"
   ],
   "note": "codepoint over a range needs stack space for as many values as the string has bytes and a string below 2^31 bytes; the length of a string is below 2^63"
  },
  {
   "property": "C84",
   "status": "proved",
   "theorems": [
    "Verif.Cons.constructor_correct",
    "Verif.Cons.constructor_exact",
    "Verif.Cons.constructor_items_win",
    "Verif.Cons.constructor_compiles",
    "Verif.Cons.constructor_fits"
   ],
   "note": "Expressions are arbitrary effects that put their values into a register and may overwrite all registers above; a record field is one instruction."
  },
  {
   "property": "C85",
   "status": "partial",
   "theorems": [
    "Verif.Cons.array_constructor_partial",
    "Verif.Cons.array_constructor_over_50"
   ],
   "note": "Holds for up to 50 items (the last may have any number of values). False from the 51st item on: OP_SETLIST reads register ra + i with the index in the array, not in the batch; array_constructor_over_50 says what 51 to 100 items give. Record fields in typed array constructors are not covered."
  },
  {
   "property": "C86",
   "status": "proved",
   "theorems": [
    "Verif.Coro.coroutines_correct",
    "Verif.Coro.status_correct"
   ],
   "note": "Refinement of the machine with stacks, CallInfos, native stack and long jumps to a frame-stack semantics. Hooks, other continuations, message handlers, deferred functions, coroutine.wrap and stack limits are outside the model."
  },
  {
   "property": "C87",
   "status": "partial",
   "theorems": [
    "Verif.Meta.index_partial",
    "Verif.Meta.index_string_partial",
    "Verif.Meta.newindex_partial",
    "Verif.Meta.settable_wf",
    "Verif.Meta.index_array_handler",
    "Verif.Meta.newindex_array_handler",
    "Verif.Meta.self_array",
    "Verif.Meta.index_array_example"
   ],
   "note": "False in the code for handlers that are typed arrays, and for lua_getfield / long method names on a typed array: luaV_fastget takes the array for a table (index_array_handler, newindex_array_handler, self_array). Proved for all chains whose handlers are not typed arrays."
  },
  {
   "property": "C88",
   "status": "proved",
   "theorems": [
    "Verif.FinishOp.yield_transparent",
    "Verif.FinishOp.yield_sound"
   ],
   "note": "For the instructions of one Lua function; what called functions do is arbitrary. OP_CALL and OP_TAILCALL for C functions."
  },
  {
   "property": "C89",
   "status": "partial",
   "theorems": [
    "Verif.Lin.operator_value_partial",
    "Verif.Lin.divide_wrong",
    "Verif.Lin.divide_by_zero",
    "Verif.Lin.overflow_ub",
    "Verif.Lin.negate_overflow_ub"
   ],
   "note": "The claim is false of the code for / with two operands of static type integer, and where integers overflow (negations proved); the theorem covers all other cases with operands that are literals or variables."
  },
  {
   "property": "C90",
   "status": "partial",
   "theorems": [
    "Verif.Lin.expression_value_partial",
    "Verif.Lin.expression_run",
    "Verif.Lin.run_det",
    "Verif.Lin.evalS_eval",
    "Verif.Lin.order_wrong",
    "Verif.Lin.compare_order_wrong"
   ],
   "note": "The claim is false of the code where a pending indexed load is overtaken by the other operand (negations proved). The theorem covers expressions of any size in which that does not happen (Plain), without integer overflow. Calls, upvalues, globals, concatenation and typed arrays are not modelled."
  },
  {
   "property": "C91",
   "status": "partial",
   "theorems": [
    "Verif.Lin.temporaries_suffice_partial",
    "Verif.Lin.temporaries_overrun"
   ],
   "note": "The first half of the claim is false of the code (negation proved for a sum of more than 256 variables); true for nesting depth d with m + 6d + 3 at most 256. The second half is proved under the same bound."
  },
  {
   "property": "C92",
   "status": "partial",
   "theorems": [
    "Verif.Lin.assignment_partial",
    "Verif.Lin.swap_wrong",
    "Verif.Lin.key_wrong",
    "Verif.Lin.toint_wrong",
    "Verif.Lin.init_wrong",
    "Verif.Lin.init_asserts"
   ],
   "note": "assignment_partial: any multiple assignment of Plain expressions in which no variable is used in place after it has been assigned has the outcome of the language, unless signed integers overflow or a float from an untyped place reaches an integer variable. The full statement is false: a swap of two integer variables in C variables loses one, an indexed place uses a key that was just assigned, a float 3.0 that reaches an integer variable is stored as its bits, an integer variable without a value in a list becomes nil in its register, and an indexed place without a value fails an assertion (the five negations)."
  },
  {
   "property": "C93",
   "status": "partial",
   "theorems": [
    "Verif.LinStmt.statement_partial",
    "Verif.LinStmt.statement_total_partial",
    "Verif.LinStmt.code_stops_partial",
    "Verif.LinStmt.one_outcome",
    "Verif.LinStmt.ended_not_forever",
    "Verif.LinStmt.safe_run_is_run",
    "Verif.LinStmt.while_integer_rejected",
    "Verif.LinStmt.repeat_integer_asserts",
    "Verif.LinStmt.for_start_ub",
    "Verif.LinStmt.for_step_ub",
    "Verif.LinStmt.for_float_rejected"
   ],
   "note": "Every run of a statement in the language (relational semantics, any number of rounds, any nesting) is matched by the code: it gets to the point after the statement, or to the block where break goes, or raises the error, with the right variables and memory; if the statement runs for ever, so does the code; if the code stops, the statement ends. The language has one outcome for each statement. Missing: conditions of static type integer or number, loops over floats, overflow in the start or step of a numeric for (all proved to fail, with witnesses); expressions and assignments outside Plain and Fine (C90, C92); captured variables, goto, return, calls, the generic for."
  },
  {
   "property": "C94",
   "status": "partial",
   "theorems": [
    "Verif.BitOp.tobit_bits",
    "Verif.BitOp.bnot_bits",
    "Verif.BitOp.band_bits",
    "Verif.BitOp.bor_bits",
    "Verif.BitOp.bxor_bits",
    "Verif.BitOp.lshift_bits",
    "Verif.BitOp.rshift_bits",
    "Verif.BitOp.arshift_bits",
    "Verif.BitOp.rol_bits_partial",
    "Verif.BitOp.ror_bits_partial",
    "Verif.BitOp.rol_zero_ub",
    "Verif.BitOp.bswap_bits",
    "Verif.BitOp.bswap_bswap",
    "Verif.BitOp.tohex_digits_partial",
    "Verif.BitOp.tohex_ub",
    "Verif.BitOp.IsBits.unique"
   ],
   "note": "Every bit of every result, for all arguments. False, with proofs: rol and ror with a count that is a multiple of 32 shift by 32, which is undefined in C; tohex with n = -2^31 negates INT_MIN. Everything else is proved."
  },
  {
   "property": "C95",
   "status": "proved",
   "theorems": [
    "Verif.BaseLib.tonumber_base",
    "Verif.BaseLib.tonumber_exact",
    "Verif.BaseLib.tonumber_onto"
   ],
   "note": "Strings of any bytes; character classes are those of the C locale."
  },
  {
   "property": "C96",
   "status": "proved",
   "theorems": [
    "Verif.BaseLib.select_spec",
    "Verif.BaseLib.select_suffix"
   ],
   "note": "Integer index; select('#', ...) is not modelled."
  },
  {
   "property": "C97",
   "status": "partial",
   "theorems": [
    "Verif.MemBuf.buffer_text",
    "Verif.MemBuf.membuff_text_partial",
    "Verif.MemBuf.membuff_cuts"
   ],
   "note": "Proved for the compiler library for formatted texts shorter than 2^31 - 1 bytes. For membuff_t the property fails for formatted texts over 1023 bytes (membuff_cuts) and is proved for the others. Not modelled: add_bytes with a length other than that of the string, sizes near 2^64, failed allocation, membuff_rewindpos."
  },
  {
   "property": "C98",
   "status": "proved",
   "theorems": [
    "Verif.Zio.reads_bytes",
    "Verif.Zio.pieces_do_not_matter",
    "Verif.Zio.getc_after_end_ub",
    "Verif.Zio.read_again"
   ],
   "note": "The reader is the list of the pieces that it returns; that the lexer and the loader stop at the end is not proved here."
  },
  {
   "property": "C99",
   "status": "proved",
   "theorems": [
    "Verif.MathLib.floor_spec",
    "Verif.MathLib.ceil_spec",
    "Verif.MathLib.round_other",
    "Verif.MathLib.modf_spec",
    "Verif.MathLib.fmod_spec",
    "Verif.MathLib.abs_spec",
    "Verif.MathLib.ult_spec",
    "Verif.MathLib.min_spec",
    "Verif.MathLib.max_spec",
    "Verif.MathLib.min_nan"
   ],
   "note": "floor and ceil of the C library are taken to be exact; fmod and fabs of floats are C's and not modelled; with NaN among the arguments min and max depend on the order (min_nan)."
  }
 ]
}