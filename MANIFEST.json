{
 "claims": [
  {
   "property": "C01",
   "status": "proved",
   "theorems": [
    "Avian.Math.pad_toNat",
    "Avian.Math.pad_isRoundUp",
    "Avian.Math.padDefault_isRoundUp",
    "Avian.Math.pad_wraps",
    "Avian.Math.ceilingDivide_exact",
    "Avian.Math.ceilingDivide_overflow_wrong",
    "Avian.Math.avg_exact",
    "Avian.Math.avg_overflow_wrong",
    "Avian.Math.nextPowerOfTwo_correct",
    "Avian.Math.nextPowerOfTwo_diverges",
    "Avian.Math.log_correct",
    "Avian.Math.log_diverges",
    "Avian.Math.powerOfTwo_correct",
    "Avian.Math.powerOfTwo_zero",
    "Avian.Math.fitsInInt_iff"
   ],
   "note": "Exact ranges in which each helper is right, and what happens outside (wrap, non-termination)."
  },
  {
   "property": "C02",
   "status": "proved",
   "theorems": [
    "Avian.Bits.bitAt_markBit",
    "Avian.Bits.bitAt_clearBit",
    "Avian.Bits.getBit_eq",
    "Avian.Bits.bitAt_setBits",
    "Avian.Bits.getBits_getLsbD",
    "Avian.Bits.getBits_setBits_same",
    "Avian.Bits.getBits_setBits_other",
    "Avian.Bits.bitAt_clearBits",
    "Avian.Bits.segMap_get_setOnly_same",
    "Avian.Bits.segMap_get_setOnly_other",
    "Avian.Bits.hasMore_spec",
    "Avian.Bits.drain_spec",
    "Avian.Bits.iterInit_covers",
    "Avian.Bits.iterInit_unaligned_misses"
   ],
   "note": ""
  },
  {
   "property": "C03",
   "status": "proved",
   "theorems": [
    "Avian.Stream.run_refines",
    "Avian.Stream.setPosition_past_end_reads_outside"
   ],
   "note": "Refinement to an abstract byte reader for read/skip sequences; a jump past the end (setPosition) defeats the bound check, shown by a counterexample."
  },
  {
   "property": "C04",
   "status": "proved",
   "theorems": [
    "Avian.Tree.code_index_correct",
    "Avian.Tree.update_missing_crashes"
   ],
   "note": "Pointer-level model; the default for a missing key is null."
  },
  {
   "property": "C05",
   "status": "proved",
   "theorems": [
    "Avian.Tree.depth_bound",
    "Avian.Tree.insert_never_aborts"
   ],
   "note": ""
  },
  {
   "property": "C06",
   "status": "proved",
   "theorems": [
    "Avian.Tree.insert_preserves_snapshot"
   ],
   "note": "Every store of an insertion goes to a node the insertion allocated."
  },
  {
   "property": "C07",
   "status": "proved",
   "theorems": [
    "Avian.HashMap.table_refines",
    "Avian.HashMap.iterator_visits_each_once",
    "Avian.HashMap.raw_insert_twice_shows_first"
   ],
   "note": "Refinement to an abstract map for histories of lookup, insert-if-absent, insert-or-replace, remove and collections inside every allocation; plain duplicate insertion is shown to violate most-recent-wins."
  },
  {
   "property": "C08",
   "status": "proved",
   "theorems": [
    "Avian.HashMap.table_refines",
    "Avian.HashMap.visible_entry_kept",
    "Avian.HashMap.dead_never_returned"
   ],
   "note": "Same refinement with key deaths and finalizer removals at every allocation point."
  },
  {
   "property": "C09",
   "status": "proved",
   "theorems": [
    "Avian.Zone.blocks_disjoint",
    "Avian.Zone.allocate_succeeds",
    "Avian.Zone.pop_releases_last",
    "Avian.Zone.pop_then_allocate",
    "Avian.Zone.empty_block_peek_wrong"
   ],
   "note": "For positive sizes whose 32-bit computations do not wrap; empty blocks are a counterexample for peek."
  },
  {
   "property": "C10",
   "status": "partial",
   "theorems": [
    "Avian.FixedAlloc.run_good",
    "Avian.FixedAlloc.allocate_iff",
    "Avian.FixedAlloc.free_last_restores_partial",
    "Avian.FixedAlloc.free_odd_size_aborts",
    "Avian.FixedAlloc.exact_fit_refused",
    "Avian.FixedAlloc.huge_request_overlaps"
   ],
   "note": "The code violates the full property: odd sizes cannot be freed, exact fits abort, refusal is an abort, and sizes of 2^32 are truncated. Each is proved; the rest of the property is proved."
  },
  {
   "property": "C11",
   "status": "proved",
   "theorems": [
    "Avian.Utf8.utf8_round_trip",
    "Avian.Utf8.class_file_text",
    "Avian.Utf8.utf_length_exact",
    "Avian.Utf8.ascii_parse",
    "Avian.Utf8.latin1_bytes_do_not_round_trip"
   ],
   "note": "For every sequence of 16-bit units, release and debug builds. Byte strings with bytes above 127, which the parser never makes, do not round-trip (proved)."
  },
  {
   "property": "C12",
   "status": "proved",
   "theorems": [
    "Avian.Utf8.parse_total",
    "Avian.Utf8.parse_debug_safe",
    "Avian.Utf8.truncated_reads_following"
   ],
   "note": "Every byte sequence; streams exactly as long as the announced length, as all callers give. On a longer stream a truncated sequence consumes following bytes (proved)."
  },
  {
   "property": "C13",
   "status": "partial",
   "theorems": [
    "Avian.Utf8.stringEqual_iff",
    "Avian.Utf8.equal_strings_equal_hash_partial",
    "Avian.Utf8.parse_bytes_ascii",
    "Avian.Utf8.same_form_equal_hash",
    "Avian.Utf8.equal_strings_different_hash"
   ],
   "note": "Proved for byte strings holding ASCII only, the parser's invariant; false for bytes above 127 (proved), because characters are sign extended for comparison and zero extended for hashing."
  },
  {
   "property": "C14",
   "status": "proved",
   "theorems": [
    "Avian.HashMap.intern_canonical"
   ],
   "note": "Over the weak table model; string equality and hash are arbitrary but compatible (C13 says when they are)."
  },
  {
   "property": "C15",
   "status": "partial",
   "theorems": [
    "Avian.Finder.lookup_exact_partial",
    "Avian.Finder.lookup_iff_listed_partial",
    "Avian.Finder.find_content_partial",
    "Avian.Finder.stat_directory_partial",
    "Avian.Finder.non_ascii_name_lost",
    "Avian.Finder.bad_offset_reads_outside"
   ],
   "note": "From the archive bytes to the answer, for every well-formed archive; false for some non-ASCII names in archives of more than 256 entries (proved), so those are excluded."
  },
  {
   "property": "C16",
   "status": "proved",
   "theorems": [
    "Avian.Finder.find_first",
    "Avian.Finder.find_append",
    "Avian.Finder.find_none_iff",
    "Avian.Finder.stat_iff",
    "Avian.Finder.source_first",
    "Avian.Finder.url_enumeration",
    "Avian.Finder.tokens_spec",
    "Avian.Finder.path_order",
    "Avian.Finder.cyclic_manifest_diverges"
   ],
   "note": "Search order over any list of elements; path string tokenizing and manifest expansion; a manifest cycle is shown to make path construction diverge."
  },
  {
   "property": "C17",
   "status": "partial",
   "theorems": [
    "Avian.Class.instance_fields_laid_out_partial",
    "Avian.Class.instance_size_wraps",
    "Avian.Class.instance_fields_collide",
    "Avian.Class.void_field_resets"
   ],
   "note": "For every hierarchy with at most 8190 instance fields. Beyond that the 16-bit size and offsets wrap and fields collide (proved); a field of type V restarts the layout at the header (proved)."
  },
  {
   "property": "C18",
   "status": "partial",
   "theorems": [
    "Avian.Class.reference_map_exact_partial",
    "Avian.Class.walkNext_next",
    "Avian.Class.walk_array_exact",
    "Avian.Class.walk_wide_elements_skip"
   ],
   "note": "Same bound as C17. The walk over instances, arrays and the step-wise walk."
  },
  {
   "property": "C19",
   "status": "partial",
   "theorems": [
    "Avian.Class.static_fields_laid_out_partial",
    "Avian.Class.singletonCount_correct",
    "Avian.Class.static_offset_wraps"
   ],
   "note": "At most 8189 static fields per class; the 8190th long gets offset 0 (proved)."
  },
  {
   "property": "C20",
   "status": "partial",
   "theorems": [
    "Avian.Dispatch.virtual_call_partial",
    "Avian.Dispatch.selected_in_table",
    "Avian.Dispatch.slot_kept",
    "Avian.Dispatch.slots_distinct",
    "Avian.Dispatch.virtual_call_wrong_method",
    "Avian.Dispatch.wide_program",
    "Avian.Dispatch.wide_table"
   ],
   "note": "Every hierarchy, any order of the hash maps. Tables of at most 65536 entries: beyond that the 16-bit offset wraps and another method runs (proved, with a program). Package-private methods are treated as the code does, as overridable everywhere."
  },
  {
   "property": "C21",
   "status": "partial",
   "theorems": [
    "Avian.Dispatch.interface_call_partial",
    "Avian.Dispatch.interface_call_is_virtual_call_partial",
    "Avian.Dispatch.interface_call_selects_partial",
    "Avian.Dispatch.iface_table_complete",
    "Avian.Dispatch.table_source",
    "Avian.Dispatch.default_method_not_most_specific"
   ],
   "note": "Names of loaded classes are assumed different and interface tables at most 65536 entries long. Default methods copied into a class are kept by subclasses even if a more specific default exists (proved)."
  },
  {
   "property": "C22",
   "status": "partial",
   "theorems": [
    "Avian.Dispatch.assignable_iff_partial",
    "Avian.Dispatch.isAssignableFrom_refl",
    "Avian.Dispatch.isAssignableFrom_trans_partial",
    "Avian.Dispatch.assignable_trans",
    "Avian.Dispatch.instanceOf_iff_partial",
    "Avian.Dispatch.same_name_interface_lost"
   ],
   "note": "Equivalence with the subtype relation for all types including nested arrays, reflexivity, transitivity. Class names are assumed different: with two interfaces of one name one is lost (proved)."
  },
  {
   "property": "C23",
   "status": "proved",
   "theorems": [
    "Avian.Descriptor.scan_correct",
    "Avian.Descriptor.footprint_correct",
    "Avian.Descriptor.iterator_visits_parameters",
    "Avian.Descriptor.malformed_reads_outside"
   ],
   "note": "For the whole descriptor grammar. Malformed descriptors make the scanner read past the string (proved)."
  },
  {
   "property": "C24",
   "status": "partial",
   "theorems": [
    "Avian.ClassInit.started_once",
    "Avian.ClassInit.finished_once",
    "Avian.ClassInit.superclass_first_partial",
    "Avian.ClassInit.returns_after_initializer",
    "Avian.ClassInit.requests_progress",
    "Avian.ClassInit.subclass_starts_after_failed_superclass"
   ],
   "note": "Any number of threads, any hierarchy, nested and recursive requests, one shared access per step. At most one start and the waiting are in full. That the superclass was initialised successfully is false: a subclass initializer starts although its superclass failed meanwhile (proved)."
  },
  {
   "property": "C25",
   "status": "partial",
   "theorems": [
    "Avian.ClassInit.failed_class_refused_partial",
    "Avian.ClassInit.throws_only_after_failure",
    "Avian.ClassInit.no_lost_wakeup_partial",
    "Avian.ClassInit.waiter_stranded",
    "Avian.ClassInit.waiting_request_returns_after_failure",
    "Avian.ClassInit.error_leaves_class_initialized"
   ],
   "note": "Requests made after the class was marked as failed never return normally, and throws have a cause. The full statement is false in three ways, each proved: a waiting thread is never woken, one that is woken returns normally, and an initializer ended by an Error leaves the class initialized."
  },
  {
   "property": "C26",
   "status": "proved",
   "theorems": [
    "Avian.Enter.exclusive_excludes",
    "Avian.Enter.nobody_enters_while_exclusive",
    "Avian.Enter.count_exact",
    "Avian.Enter.assertions_hold"
   ],
   "note": "Any number of threads, one shared-memory access per step, sequentially consistent memory (the code has full barriers at the racing accesses). The exit state is left out."
  },
  {
   "property": "C27",
   "status": "proved",
   "theorems": [
    "Avian.Enter.no_lost_wakeup",
    "Avian.Enter.no_lost_wakeup_free",
    "Avian.Enter.enter_progress"
   ],
   "note": "Same model; also absence of deadlock inside enter."
  },
  {
   "property": "C28",
   "status": "proved",
   "theorems": [
    "Avian.Monitor.mutual_exclusion",
    "Avian.Monitor.owner_iff_entered",
    "Avian.Monitor.freed_only_after_last_exit",
    "Avian.Monitor.exit_without_entry_refused",
    "Avian.Monitor.refused_stays",
    "Avian.Monitor.no_abort"
   ],
   "note": "Any number of threads, one shared-memory access per step, sequentially consistent memory. The depth is unbounded in the model."
  },
  {
   "property": "C29",
   "status": "proved",
   "theorems": [
    "Avian.Monitor.queue_first_come_first_served",
    "Avian.Monitor.served_in_turn",
    "Avian.Monitor.no_lost_wakeup",
    "Avian.Monitor.release_wakes_first",
    "Avian.Monitor.operations_progress"
   ],
   "note": "Same model. The queue order is the order of linking; a thread that finds the queue empty and the monitor free enters without queueing."
  },
  {
   "property": "C30",
   "status": "proved",
   "theorems": [
    "Avian.Monitor.wait_notify_refused",
    "Avian.Monitor.wait_gives_up_monitor",
    "Avian.Monitor.wait_keeps_entries",
    "Avian.Monitor.wait_returns_with_monitor",
    "Avian.Monitor.wait_list_exact",
    "Avian.Monitor.wait_joins_last",
    "Avian.Monitor.notify_takes_longest",
    "Avian.Monitor.notifyAll_takes_all",
    "Avian.Monitor.wait_list_steps",
    "Avian.Monitor.outside_not_waiting",
    "Avian.Monitor.notified_thread_wakes"
   ],
   "note": "Time-outs, interrupts and spurious wake-ups are covered by a wait that may end at any time."
  },
  {
   "property": "C31",
   "status": "proved",
   "theorems": [
    "Avian.SysMonitor.events_ok",
    "Avian.SysMonitor.never_broken",
    "Avian.SysMonitor.mutual_exclusion",
    "Avian.SysMonitor.depth_exact",
    "Avian.SysMonitor.depth_restored",
    "Avian.SysMonitor.queue_exact",
    "Avian.SysMonitor.timed_out_leaves",
    "Avian.SysMonitor.no_lost_wakeup",
    "Avian.SysMonitor.no_deadlock"
   ],
   "note": "Any number of threads, any schedule, time-outs and spurious wake-ups at any time, interrupts. Stated on the log of events. A notification that meets a waiter which has timed out but not left yet is used up by it (shown by an example)."
  },
  {
   "property": "C32",
   "status": "proved",
   "theorems": [
    "Avian.Collect.collection_preserves_graph",
    "Avian.Collect.collection_ends",
    "Avian.Collect.major_frees_garbage",
    "Avian.Collect.collector_invisible"
   ],
   "note": "Every heap that any history of allocations, loads, stores and collections can produce, minor and major collections, including the traversal that keeps its stack inside the copied objects. Roots are visited once each; weak references and finalizers are C39; header bits and hash words are C37."
  },
  {
   "property": "C33",
   "status": "proved",
   "theorems": [
    "Avian.Bitset.pending_fields_exact",
    "Avian.Bitset.two_fields_exact",
    "Avian.Bitset.visits_exact",
    "Avian.Bitset.next_is_minimum",
    "Avian.Bitset.words_inside"
   ],
   "note": "Any number and position of fields below offset 2^31, any earlier contents of the memory."
  },
  {
   "property": "C34",
   "status": "proved",
   "theorems": [
    "Avian.Collect.old_to_young_remembered",
    "Avian.Collect.remembered_are_references",
    "Avian.Collect.collector_invisible"
   ],
   "note": "For every history. Objects of the boot image are assumed never to be stored into. Slots remembered while a minor collection runs are not visited again by it."
  },
  {
   "property": "C35",
   "status": "partial",
   "theorems": [
    "Avian.Account.usage_exact",
    "Avian.Account.usage_zero",
    "Avian.Account.limit_respected",
    "Avian.Account.refused_iff",
    "Avian.Account.never_over",
    "Avian.Account.remaining_exact",
    "Avian.Account.limitExceeded_exact",
    "Avian.Account.four_gigabytes_unrecorded",
    "Avian.Account.remaining_wraps"
   ],
   "note": "Exact while less than 4 GB are held, and always modulo 2^32; requests that insist are not bounded, so a 4 GB one is not recorded and cannot be freed (proved)."
  },
  {
   "property": "C36",
   "status": "proved",
   "theorems": [
    "Avian.Collect.non_moving_stays",
    "Avian.Collect.non_moving_freed_exactly",
    "Avian.Fixies.lists_sound",
    "Avian.Fixies.one_list",
    "Avian.Fixies.resting_place",
    "Avian.Fixies.working_place",
    "Avian.Fixies.released_iff",
    "Avian.Fixies.sweep_creates_nothing",
    "Avian.Fixies.ageing",
    "Avian.Fixies.dead_iff_doomed",
    "Avian.Fixies.resurrected",
    "Avian.Fixies.none_dead"
   ],
   "note": "Address and release in terms of reachability (Collect); list membership with the link fields as the code writes them (Fixies), for every order of heap operations. An immortal object may be on no list."
  },
  {
   "property": "C37",
   "status": "proved",
   "theorems": [
    "Avian.Header.hash_never_changes",
    "Avian.Header.room_for_hash",
    "Avian.Header.takeHash_nonneg",
    "Avian.Header.move_keeps_contents"
   ],
   "note": "Memory words with the header marks, for every history of allocations, stores, class moves, object moves and hash requests. The counter of padding words (heap->pad) is not part of this model."
  },
  {
   "property": "C38",
   "status": "partial",
   "theorems": [
    "Avian.Header.clone_instance",
    "Avian.Header.clone_array_partial",
    "Avian.Header.clone_extended_array_claims_memory",
    "Avian.Header.clone_small_fixed_array_claims_fixed",
    "Avian.Header.clone_array_not_good"
   ],
   "note": "Full for instances. For arrays the full statement CloneArrayGood is false (clone_array_not_good): the code resets the header of the original instead of the clone."
  },
  {
   "property": "C39",
   "status": "partial",
   "theorems": [
    "Avian.Refs.finalizers_accounted",
    "Avian.Refs.finalizer_runs_once",
    "Avian.Refs.scheduled_was_unreachable",
    "Avian.Refs.finalizer_target_survives",
    "Avian.Refs.finalizer_scheduled_iff",
    "Avian.Refs.registered_reference_safe",
    "Avian.Refs.live_reference_target",
    "Avian.Refs.other_references_untouched",
    "Avian.Refs.queues_after",
    "Avian.Refs.references_exact_partial",
    "Avian.Refs.jni_weak_exact",
    "Avian.Refs.poll_takes_front",
    "Avian.Refs.poll_all",
    "Avian.Refs.reference_to_finalizable_never_enqueued",
    "Avian.Refs.early_clear_of_survivor",
    "Avian.Refs.resurrected_reference_dangles"
   ],
   "note": "Finalizers in full, for every graph and any sequence of collections. References: always safe and never redirected while registered; exact clearing and enqueueing when no unreachable reference is resurrected and no old finalizer resurrects anything. The full statement is false: three theorems show a reference that is never enqueued, one cleared although its target survives, and one left pointing to a freed object."
  },
  {
   "property": "C40",
   "status": "partial",
   "theorems": [
    "Avian.Threads.run_partial",
    "Avian.Threads.reach_iff",
    "Avian.Threads.addThread_wf",
    "Avian.Threads.dispose_wf",
    "Avian.Threads.killZombies_wf",
    "Avian.Threads.visitAll_once",
    "Avian.Threads.shutdown_frees_all",
    "Avian.Threads.removeThread_first",
    "Avian.Threads.dispose_root_dangling",
    "Avian.Threads.dispose_root_hides",
    "Avian.Threads.removeThread_loses"
   ],
   "note": "Every tree and every order of starts, exits and collections while the root thread lives. The full statement is false: removing the root leaves its children pointing to it and hides peers, and undoing a failed start loses a thread registered in between (proved)."
  },
  {
   "property": "C41",
   "status": "partial",
   "theorems": [
    "Avian.Interp.integer_instructions_partial",
    "Avian.Interp.idiv_min_undefined"
   ],
   "note": "Every integer instruction on every operand, at any depth of any stack, except division of the most negative value by -1, which is undefined (proved)."
  },
  {
   "property": "C42",
   "status": "proved",
   "theorems": [
    "Avian.Interp.shuffle_instructions"
   ],
   "note": "All nine instructions, slots of either kind."
  },
  {
   "property": "C43",
   "status": "proved",
   "theorems": [
    "Avian.Interp.tableswitch_jumps",
    "Avian.Interp.lookupswitch_jumps"
   ],
   "note": "Stated on the bytes of the instruction."
  },
  {
   "property": "C44",
   "status": "partial",
   "theorems": [
    "Avian.Interp.fp_compare_partial",
    "Avian.Interp.compare_result",
    "Avian.Interp.fcmp_nan_pushes_two"
   ],
   "note": "Holds for all operands that are numbers; a not-a-number operand makes fcmpl and fcmpg push twice (proved)."
  },
  {
   "property": "C45",
   "status": "proved",
   "theorems": [
    "Avian.Interp.athrow_reaches_handler",
    "Avian.Interp.athrow_uncaught",
    "Avian.Interp.division_by_zero_raises",
    "Avian.Interp.interpreter_step_refines_partial"
   ],
   "note": "For aligned handler tables, as class files must have. Explicit throws, arithmetic exceptions and (through the step refinement) all exceptions raised by instructions."
  },
  {
   "property": "C46",
   "status": "proved",
   "theorems": [
    "Avian.Interp.invokestatic_enters",
    "Avian.Interp.return_restores",
    "Avian.Interp.return_finishes",
    "Avian.Interp.interpreter_step_refines_partial",
    "Avian.Interp.unlock_wrong_object"
   ],
   "note": "The step refinement covers the other invoke instructions and synchronized methods; a synchronized instance method that overwrites variable 0 releases the wrong monitor (proved, excluded by hypothesis)."
  },
  {
   "property": "C47",
   "status": "partial",
   "theorems": [
    "Avian.Interp.read_after_write",
    "Avian.Interp.write_other",
    "Avian.Interp.putfield_step",
    "Avian.Interp.getfield_step_partial",
    "Avian.Interp.char_field_negative"
   ],
   "note": "Read after write and non-interference for all types; reading a char field holding 32768 or more gives a negative value (proved), so getfield is partial."
  },
  {
   "property": "C48",
   "status": "partial",
   "theorems": [
    "Avian.JniName.name_fits",
    "Avian.JniName.resolver_never_overruns",
    "Avian.JniName.escape_matches_jni_partial",
    "Avian.JniName.non_ascii_not_escaped",
    "Avian.JniName.mangle_injective_partial",
    "Avian.JniName.mangle_not_injective",
    "Avian.JniName.short_symbol_unambiguous",
    "Avian.JniName.long_symbol_unambiguous",
    "Avian.JniName.resolve_first"
   ],
   "note": "Length and buffer claims hold for all names. Escaping follows JNI for ASCII identifier bytes only (others are copied, proved); unambiguity holds for Java identifiers and fails for segments starting with a digit (proved)."
  },
  {
   "property": "C49",
   "status": "partial",
   "theorems": [
    "Avian.Lines.line_number_partial",
    "Avian.Lines.line_number_other",
    "Avian.Lines.line_number_from_table",
    "Avian.Lines.duplicate_entry_never_ends",
    "Avian.Lines.unsorted_table_wrong_line",
    "Avian.Lines.position_zero_wraps"
   ],
   "note": "Exact for sorted tables of any length and positions that are not the start of two entries. For such a position the search never ends (proved); unsorted tables, which class files may have, give a wrong line (proved)."
  },
  {
   "property": "C50",
   "status": "partial",
   "theorems": [
    "Avian.Interp.fp_to_integer",
    "Avian.Interp.f2l_partial",
    "Avian.Interp.f2l_large_undefined"
   ],
   "note": "f2i, d2i, d2l for every bit pattern; f2l is undefined outside the range of long (proved)."
  },
  {
   "property": "C51",
   "status": "partial",
   "theorems": [
    "Avian.Interp.interpreter_step_refines_partial",
    "Avian.Interp.interpreter_run_refines_partial",
    "Avian.Interp.exCall_safe",
    "Avian.Interp.aastore_unchecked",
    "Avian.Interp.wide_float_undefined",
    "Avian.Interp.wide_astore_undefined",
    "Avian.Interp.unlock_wrong_object"
   ],
   "note": "Simulation of every bytecode instruction except multianewarray, for runs of any length. Resolution is a parameter; calls of native methods and garbage collection between steps are not modelled. The steps where the code departs from the specification are listed in Spec.departs and each is shown by a theorem."
  },
  {
   "property": "C52",
   "status": "proved",
   "theorems": [
    "Avian.ClassFile.pool_as_written",
    "Avian.ClassFile.maskSize_recovered",
    "Avian.ClassFile.samplePool_legal",
    "Avian.ClassFile.self_reference_never_ends",
    "Avian.ClassFile.bad_reference_reads_outside",
    "Avian.ClassFile.wrong_kind_undefined"
   ],
   "note": "Every well-formed table of fewer than 65536 slots at any place of the file. Tables that are not well-formed are not rejected: an entry referring to itself is read forever, constant number 0 and the second half of a two-slot entry read outside, and a reference to the wrong kind is followed (proved)."
  },
  {
   "property": "C53",
   "status": "partial",
   "theorems": [
    "Avian.ClassFile.class_as_written_partial",
    "Avian.ClassFile.sampleClass_ok",
    "Avian.ClassFile.inner_class_number_unreadable",
    "Avian.ClassFile.stated_length_ignored"
   ],
   "note": "Every well-formed class file with any attributes in any order. Constant numbers of inner class records and enclosing methods are below 32768; beyond, the signed 16-bit number leads outside the pool (proved). If an attribute occurs twice, which the format forbids, the last one counts. Loading of the superclass and interfaces, field layout and method tables are C19 to C22."
  },
  {
   "property": "C54",
   "status": "partial",
   "theorems": [
    "Avian.Numbers.toString_numeral",
    "Avian.Numbers.parse_digits",
    "Avian.Numbers.parse_numeral",
    "Avian.Numbers.parse_toString",
    "Avian.Numbers.parseInt_toString",
    "Avian.Numbers.parse_refuses",
    "Avian.Numbers.toUnsignedString_numeral",
    "Avian.Numbers.toString_refuses",
    "Avian.Numbers.leading_zeros_change_value",
    "Avian.Numbers.out_of_range_accepted",
    "Avian.Numbers.empty_accepted",
    "Avian.Numbers.long_hex_negative",
    "Avian.Numbers.base_one_never_ends"
   ],
   "note": "Writing, reading of numerals in range and the round trip are in full. Reading is more lenient and less exact than it should be, each proved: numbers out of range and texts without digits are accepted, leading zeros may change the value, Long.toHexString of a negative number has a sign, and base 1 never ends."
  },
  {
   "property": "C55",
   "status": "partial",
   "theorems": [
    "Avian.Numbers.compareLong_order",
    "Avian.Numbers.compareSmall_order",
    "Avian.Numbers.compareBool_order",
    "Avian.Numbers.compareInt_order_partial",
    "Avian.Numbers.compareInt_not_transitive"
   ],
   "note": "Integer.compareTo is right exactly when the numbers are less than 2^31 apart; otherwise it is wrong, so it is not an order (proved)."
  },
  {
   "property": "C56",
   "status": "partial",
   "theorems": [
    "Avian.Numbers.bitCount_ones",
    "Avian.Numbers.numberOfLeadingZeros_spec",
    "Avian.Numbers.reverseBytes_bytes_partial",
    "Avian.Numbers.reverseBytes_wrong"
   ],
   "note": "Counting is in full. reverseBytes exchanges the outer bytes, but loses one inner byte and mixes the other (proved)."
  },
  {
   "property": "C57",
   "status": "partial",
   "theorems": [
    "Avian.Strings.text_length",
    "Avian.Strings.charAt_spec",
    "Avian.Strings.getChars_spec",
    "Avian.Strings.toCharArray_text",
    "Avian.Strings.make_chars",
    "Avian.Strings.substring_spec",
    "Avian.Strings.compareTo_order",
    "Avian.Strings.compareToIgnoreCase_order",
    "Avian.Strings.equals_spec",
    "Avian.Strings.equalsIgnoreCase_spec",
    "Avian.Strings.hashCode_spec",
    "Avian.Strings.indexOfChar_first",
    "Avian.Strings.lastIndexOfChar_last",
    "Avian.Strings.indexOf_first",
    "Avian.Strings.lastIndexOf_last",
    "Avian.Strings.contains_spec",
    "Avian.Strings.startsWith_spec",
    "Avian.Strings.endsWith_spec",
    "Avian.Strings.startsWithAt_partial",
    "Avian.Strings.regionMatches_spec",
    "Avian.Strings.mapCase_spec",
    "Avian.Strings.case_letters",
    "Avian.Strings.replaceChar_spec_partial",
    "Avian.Strings.trim_spec",
    "Avian.Strings.replace_spec",
    "Avian.Strings.replace_empty",
    "Avian.Strings.bytes_round_trip",
    "Avian.Strings.charAt_length_leaks",
    "Avian.Strings.startsWithAt_wrong",
    "Avian.Strings.replaceChar_wrong",
    "Avian.Strings.indexOf_borders",
    "Avian.Strings.trim_keeps_controls",
    "Avian.Strings.make_overflow"
   ],
   "note": "Both forms of strings, any offset. Three operations are wrong, each proved: startsWith(text, start) except for start 0, replace(char, char) with characters that are not ASCII in a compact string, and charAt(length()) which is not refused."
  },
  {
   "property": "C58",
   "status": "partial",
   "theorems": [
    "Avian.JUtf8.decode_encode",
    "Avian.JUtf8.encode_standard",
    "Avian.JUtf8.encode_bytes",
    "Avian.JUtf8.zero_grows",
    "Avian.JUtf8.four_bytes_dropped"
   ],
   "note": "All texts that have no zero character or a wide one; a zero among ASCII characters comes back with a zero too many (proved), and four-byte sequences are dropped (proved)."
  },
  {
   "property": "C59",
   "status": "partial",
   "theorems": [
    "Avian.Builder.append_text",
    "Avian.Builder.appendChar_text",
    "Avian.Builder.stores_in_bounds",
    "Avian.Builder.charAt_text",
    "Avian.Builder.insert_text",
    "Avian.Builder.setLength_text",
    "Avian.Builder.delete_end_text",
    "Avian.Builder.delete_last_text_partial",
    "Avian.Builder.getChars_text",
    "Avian.Builder.toString_text",
    "Avian.Builder.substring_text",
    "Avian.Builder.run_effect",
    "Avian.Builder.history",
    "Avian.Builder.replace_text_partial",
    "Avian.Builder.setCharAt_text_partial",
    "Avian.Builder.delete_loses",
    "Avian.Builder.delete_throws",
    "Avian.Builder.setLength_shifts"
   ],
   "note": "Any history of append, insert, charAt, setLength to at most the present length and deletion up to the end is in full. Deletion of a range is right within the last piece; elsewhere it loses text or throws (proved), and with it replace and setCharAt. setLength beyond the end shifts the text (proved)."
  },
  {
   "property": "C60",
   "status": "proved",
   "theorems": [
    "Avian.LinkedQueue.fifo",
    "Avian.LinkedQueue.operations",
    "Avian.LinkedQueue.null_was_empty",
    "Avian.LinkedQueue.peeked_was_first",
    "Avian.LinkedQueue.no_abort",
    "Avian.LinkedQueue.ends_alone"
   ],
   "note": "Any number of threads and operations, one access to shared memory per step, sequentially consistent memory. Nodes are never reused while a thread holds one (garbage collection). remove(Object), size and iterators are not modelled."
  },
  {
   "property": "C61",
   "status": "partial",
   "theorems": [
    "Avian.LinkedList.call_spec_partial",
    "Avian.LinkedList.history_partial",
    "Avian.LinkedList.iterator_spec",
    "Avian.LinkedList.iterator_visits_all",
    "Avian.LinkedList.addAt_end_refused",
    "Avian.LinkedList.addAt_corrupts",
    "Avian.LinkedList.first_occurrence_stays",
    "Avian.LinkedList.last_occurrence_stays",
    "Avian.LinkedList.pollLast_throws",
    "Avian.LinkedList.removeFirst_null"
   ],
   "note": "Cells with their links as the code writes them; every history of calls except these, each proved wrong: adding at an index other than 0, occurrence removal at the first position, pollLast of an empty list, removal of a null element at an end. Iterators in full, while nothing else changes the list. equals is equality of elements."
  },
  {
   "property": "C62",
   "status": "partial",
   "theorems": [
    "Avian.BlockingQueue.bounded_fifo",
    "Avian.BlockingQueue.calls_return",
    "Avian.BlockingQueue.takers_awake_partial",
    "Avian.BlockingQueue.putters_awake_partial",
    "Avian.BlockingQueue.ready_returns",
    "Avian.BlockingQueue.timeouts_limited",
    "Avian.BlockingQueue.addAll_wakes_nobody",
    "Avian.BlockingQueue.clear_wakes_nobody"
   ],
   "note": "Each stay in the monitor is one step; timeouts and interrupts may happen at any time. Order, capacity and results are in full. Waking is in full but for addAll and clear, which wake nobody: a taker sleeps beside an element, a putter beside an empty queue (proved). Elements are not null."
  },
  {
   "property": "C63",
   "status": "partial",
   "theorems": [
    "Avian.FutureTask.called_once",
    "Avian.FutureTask.get_honest",
    "Avian.FutureTask.gets_agree",
    "Avian.FutureTask.cancel_stops",
    "Avian.FutureTask.cancelled_stays",
    "Avian.FutureTask.done_stays",
    "Avian.FutureTask.getters_awake_partial",
    "Avian.FutureTask.waker_moves",
    "Avian.FutureTask.holder_moves",
    "Avian.FutureTask.interrupt_stays_inside",
    "Avian.FutureTask.runner_sleeps_for_ever",
    "Avian.FutureTask.getter_sleeps_for_ever",
    "Avian.FutureTask.get_zero_refuses"
   ],
   "note": "Everything in full but the waking: without cancel(true) a thread waits for a finished task only while another is about to notify it. With cancel(true) the runner or a waiter may sleep for ever in three ways (proved). The interrupt theorem supposes that nobody else interrupts threads. The callable does not call the task it belongs to."
  },
  {
   "property": "C64",
   "status": "proved",
   "theorems": [
    "Avian.JHashMap.map_refines",
    "Avian.JHashMap.myHelper_lawful",
    "Avian.JHashMap.putAll_last",
    "Avian.JHashMap.new_never"
   ],
   "note": "`remove(Cell)`, which only WeakHashMap calls, is C66. An operation on the map during an iteration, other than the iterator's own remove, is not covered."
  },
  {
   "property": "C65",
   "status": "partial",
   "theorems": [
    "Avian.JHashMap.setAdd_ok",
    "Avian.JHashMap.setAddAll_ok",
    "Avian.JHashMap.setRemove_partial",
    "Avian.JHashMap.setRemove_inverted"
   ],
   "note": "The result of remove is the opposite of the documented one in every case (`setRemove_inverted`); everything else holds."
  },
  {
   "property": "C66",
   "status": "partial",
   "theorems": [
    "Avian.JHashMap.removeThis_first_partial",
    "Avian.JHashMap.removeThis_drops",
    "Avian.JHashMap.removeThis_cleared"
   ],
   "note": "Holds for an entry at the head of its bucket. Otherwise the entries before it in the bucket are lost with it and the size is wrong; after clear the removal is a null pointer. That the garbage collector enqueues the cell is not modelled."
  },
  {
   "property": "C67",
   "status": "partial",
   "theorems": [
    "Avian.LinkedHashMap.keeps_order_partial",
    "Avian.LinkedHashMap.order_lost",
    "Avian.LinkedHashMap.clear_undone",
    "Avian.LinkedHashMap.removes_twice"
   ],
   "note": "Holds for histories in which no key is removed that was in the map earlier but is no longer. Removing a key a second time loses a later key from the order, and removing an old key after clear makes the next iteration deliver null."
  },
  {
   "property": "C68",
   "status": "partial",
   "theorems": [
    "Avian.ArrayCopy.not_array",
    "Avian.ArrayCopy.arrayCopy_partial",
    "Avian.ArrayCopy.arrayCopy_null",
    "Avian.ArrayCopy.mixed_overrun",
    "Avian.ArrayCopy.numbers_as_references",
    "Avian.ArrayCopy.empty_copy_unchecked"
   ],
   "note": "Proved for two arrays of the same class and lengths other than 0. Arrays of different primitive types, or of numbers and of references, are copied byte by byte instead of being refused: beyond the end of the array (mixed_overrun) or turning numbers into references (numbers_as_references). A copy of no elements is never refused."
  },
  {
   "property": "C69",
   "status": "partial",
   "theorems": [
    "Avian.ArrayList.list_partial",
    "Avian.ArrayList.iterator_ok",
    "Avian.ArrayList.reachable_rep",
    "Avian.ArrayList.add_beyond",
    "Avian.ArrayList.add_negative"
   ],
   "note": "Proved except for insertions outside the list: one beyond the end is accepted and shows elements removed before, one at a negative index is refused but leaves the list one longer."
  },
  {
   "property": "C70",
   "status": "partial",
   "theorems": [
    "Avian.ArrayDeque.iterator_notices",
    "Avian.ArrayDeque.deque_partial",
    "Avian.ArrayDeque.remove_partial",
    "Avian.ArrayDeque.descending_partial",
    "Avian.ArrayDeque.no_places",
    "Avian.ArrayDeque.large_addAll",
    "Avian.ArrayDeque.remove_full",
    "Avian.ArrayDeque.remove_wrapped",
    "Avian.ArrayDeque.removes_twice",
    "Avian.ArrayDeque.descending_wrapped"
   ],
   "note": "Operations at the ends are proved for a capacity of at least 1 and addAll to an empty deque of no more than the capacity; otherwise they fail (no_places, large_addAll). Removal by an iterator fails or loses elements in the middle of a deque that reaches or goes around the end of the array; a descending iteration fails if it goes around."
  },
  {
   "property": "C71",
   "status": "partial",
   "theorems": [
    "Avian.JBitSet.set_partial",
    "Avian.JBitSet.intersects_partial",
    "Avian.JBitSet.nextSetBit_partial",
    "Avian.JBitSet.cardinality_partial",
    "Avian.JBitSet.empty_range",
    "Avian.JBitSet.clear_beyond",
    "Avian.JBitSet.intersects_fails",
    "Avian.JBitSet.next_skips",
    "Avian.JBitSet.clear_none"
   ],
   "note": "set and clear are proved for ranges that are not empty and, for clear, within the capacity; intersects for sets of equally many words; nextSetBit and cardinality for sets in which no empty word comes before another. Outside of these the code is wrong, as shown."
  },
  {
   "property": "C72",
   "status": "partial",
   "theorems": [
    "Avian.Sort.sort_permutes",
    "Avian.Sort.sort_sorts",
    "Avian.Sort.sort_stable_partial",
    "Avian.Sort.sort_unstable",
    "Avian.Sort.reverseCompare_partial",
    "Avian.Sort.reverseCompare_smallest"
   ],
   "note": "Permutation and order are proved without restriction. Stability holds only up to sixteen elements (sort_unstable: not with seventeen). reverseOrder fails for comparators that answer the smallest int."
  },
  {
   "property": "C73",
   "status": "partial",
   "theorems": [
    "Avian.Sort.searchRange_ok",
    "Avian.Sort.searchRange_refused",
    "Avian.Sort.search_partial",
    "Avian.Sort.search_last",
    "Avian.Sort.listSearch_ok",
    "Avian.Sort.reverse_ok",
    "Avian.Sort.shuffle_permutes"
   ],
   "note": "Proved but for binarySearch(int[], int), which does not look at the last element and fails for an empty array (search_last)."
  },
  {
   "property": "C74",
   "status": "partial",
   "theorems": [
    "Avian.CodePoint.toChars_ok",
    "Avian.CodePoint.pair_ok",
    "Avian.CodePoint.codePointAt_partial",
    "Avian.CodePoint.codePointAt_text",
    "Avian.CodePoint.codePointAt_refused",
    "Avian.CodePoint.final_half",
    "Avian.CodePoint.codePointCount_partial",
    "Avian.CodePoint.count_whole",
    "Avian.CodePoint.count_refused",
    "Avian.CodePoint.decode_text",
    "Avian.CodePoint.forDigit_ok",
    "Avian.CodePoint.forDigit_none",
    "Avian.CodePoint.digit_ok",
    "Avian.CodePoint.digit_none",
    "Avian.CodePoint.digit_base",
    "Avian.CodePoint.digit_forDigit",
    "Avian.CodePoint.lower_ok",
    "Avian.CodePoint.upper_ok"
   ],
   "note": "codePointAt fails before a half of a pair that ends the text (final_half); codePointCount refuses every part that reaches the end of the text, so also the whole text (count_whole). digit accepts bases above 36 (digit_base)."
  },
  {
   "property": "C75",
   "status": "partial",
   "theorems": [
    "Avian.OutStreams.baos_ok",
    "Avian.OutStreams.bstep_rep",
    "Avian.OutStreams.bos_partial",
    "Avian.OutStreams.no_places"
   ],
   "note": "A BufferedOutputStream of size 0 is accepted by the constructor and fails on the first single byte (no_places)."
  },
  {
   "property": "C76",
   "status": "partial",
   "theorems": [
    "Avian.InStreams.read_ok",
    "Avian.InStreams.readArray_ok",
    "Avian.InStreams.available_partial",
    "Avian.InStreams.available_after_end",
    "Avian.InStreams.skip_ok",
    "Avian.InStreams.skip_negative",
    "Avian.InStreams.no_places",
    "Avian.InStreams.calls_partial",
    "Avian.InStreams.readChars_ok",
    "Avian.InStreams.pushRead_ok",
    "Avian.InStreams.unread_ok",
    "Avian.InStreams.newArr_partial",
    "Avian.InStreams.newArr_beyond",
    "Avian.InStreams.arrRead_ok",
    "Avian.InStreams.arrReadArray_ok",
    "Avian.InStreams.strRead_ok",
    "Avian.InStreams.readLine_partial",
    "Avian.InStreams.readLine_feeds",
    "Avian.InStreams.divided_end"
   ],
   "note": "Fails for a buffer of size 0 (no_places); available is one too small after the end was seen (available_after_end); skip of a negative number throws NegativeArraySizeException (skip_negative); a part that reaches beyond the array of a ByteArrayInputStream is not cut off (newArr_beyond); readLine gives an additional empty line if a carriage return and line feed are divided between two buffers (divided_end)."
  },
  {
   "property": "C77",
   "status": "partial",
   "theorems": [
    "Avian.DataStreams.emit_ok",
    "Avian.DataStreams.accept_ok",
    "Avian.DataStreams.acceptAll_ok",
    "Avian.DataStreams.roundtrip_partial",
    "Avian.DataStreams.readFully_ok",
    "Avian.DataStreams.readBoolean_any",
    "Avian.DataStreams.readUnsigned_ok",
    "Avian.DataStreams.writeChars_ok",
    "Avian.DataStreams.skipBytes_ok",
    "Avian.DataStreams.readLine_partial",
    "Avian.DataStreams.float_wrong",
    "Avian.DataStreams.double_wrong",
    "Avian.DataStreams.utf_long"
   ],
   "note": "readFloat and readDouble do not give the number written (float_wrong, double_wrong); strings whose encoding has 65536 bytes or more are written with a truncated length (utf_long), and a NUL in a string that otherwise is ASCII does not survive (C58); readLine keeps a carriage return."
  },
  {
   "property": "C78",
   "status": "proved",
   "theorems": [
    "Avian.Remember.collectGen2_ok",
    "Avian.Remember.mark_ok",
    "Avian.Remember.concurrent_marks",
    "Avian.Remember.thread_moves",
    "Avian.Remember.layout_ok",
    "Avian.Remember.gen2_scales"
   ],
   "note": "The visit of a word is an arbitrary function with the contract `Sound`; C34 proves its counterpart for the collector on a model with one level of marks; unsigned 32-bit overflow of the sizes is not modelled."
  },
  {
   "property": "C79",
   "status": "partial",
   "theorems": [
    "Avian.Room.room_partial",
    "Avian.Room.exhausted_only",
    "Avian.Room.reserve_again",
    "Avian.Room.old_iff",
    "Avian.Room.capacity_ok_partial",
    "Avian.Room.footprint1_mono",
    "Avian.Room.footprint2_mono",
    "Avian.Room.age_kept",
    "Avian.Room.clone_overflow",
    "Avian.Room.negative_available"
   ],
   "note": "Fails for objects that claim more memory than was reserved for them, as clones of arrays with a moved hash code do (clone_overflow, see C38). If less than no memory is available within the limit, the largest capacity is chosen instead of the smallest (negative_available). The capacity is maximal up to one word."
  },
  {
   "property": "C80",
   "status": "proved",
   "theorems": [
    "Avian.ThreadHeap.new_object",
    "Avian.ThreadHeap.ensure_enough",
    "Avian.ThreadHeap.ensure_twice",
    "Avian.ThreadHeap.newThread_inv",
    "Avian.ThreadHeap.run_inv"
   ],
   "note": "Asking for the reserve a second time before a collection ends the process (ensure_twice); the code that promises it collects before."
  },
  {
   "property": "C81",
   "status": "partial",
   "theorems": [
    "Avian.PersistentSet.find_spec",
    "Avian.PersistentSet.add_ok",
    "Avian.PersistentSet.remove_ok_partial",
    "Avian.PersistentSet.remove_last",
    "Avian.PersistentSet.path_remove_ok",
    "Avian.PersistentSet.successor_ok",
    "Avian.PersistentSet.predecessor_ok",
    "Avian.PersistentSet.first_ok",
    "Avian.PersistentSet.last_ok",
    "Avian.PersistentSet.iterate_ok",
    "Avian.PersistentSet.depth_ok",
    "Avian.PersistentSet.step_ok",
    "Avian.PersistentSet.run_partial"
   ],
   "note": "Proved but for the removal, by value, of the only element, which throws IllegalArgumentException (remove_last); removal through a path works (path_remove_ok)."
  },
  {
   "property": "C82",
   "status": "partial",
   "theorems": [
    "Avian.TreeSet.find_ok",
    "Avian.TreeSet.contains_ok",
    "Avian.TreeSet.add_ok",
    "Avian.TreeSet.addAndReplace_ok",
    "Avian.TreeSet.removeAndReturn_ok",
    "Avian.TreeSet.remove_ok",
    "Avian.TreeSet.ends_ok",
    "Avian.TreeSet.step_ok",
    "Avian.TreeSet.run_ok",
    "Avian.TreeSet.iterator_partial",
    "Avian.TreeSet.remove_first_fails",
    "Avian.TreeSet.next_at_end"
   ],
   "note": "The set operations are proved. Iterators are correct but for: remove right after the first call of next throws IllegalStateException (remove_first_fails), and next at the end throws NullPointerException (next_at_end)."
  },
  {
   "property": "C83",
   "status": "partial",
   "theorems": [
    "Avian.TreeMap.put_ok",
    "Avian.TreeMap.remove_ok",
    "Avian.TreeMap.get_ok",
    "Avian.TreeMap.containsKey_ok",
    "Avian.TreeMap.run_ok",
    "Avian.TreeMap.order_ok",
    "Avian.TreeMap.ends_ok",
    "Avian.TreeMap.reach_ok",
    "Avian.TreeMap.entry_of_empty",
    "Avian.TreeMap.keyAdd_wrong",
    "Avian.TreeMap.keyRemove_ok",
    "Avian.TreeMap.put_replaces_key"
   ],
   "note": "Proved for maps with entries. firstEntry and lastEntry of an empty map throw NoSuchElementException instead of giving null (entry_of_empty); put also exchanges the key object (put_replaces_key); the key set accepts add, sets the value of the key to null and gives the inverted answer (keyAdd_wrong)."
  },
  {
   "property": "C84",
   "status": "proved",
   "theorems": [
    "Avian.PersistentNodes.find_ok",
    "Avian.PersistentNodes.add_ok",
    "Avian.PersistentNodes.remove_ok",
    "Avian.PersistentNodes.remove_only",
    "Avian.PersistentNodes.op1_ok",
    "Avian.PersistentNodes.grow_ok",
    "Avian.PersistentNodes.versions_ok",
    "Avian.PersistentNodes.persistent",
    "Avian.PersistentNodes.path_once"
   ],
   "note": "A path is itself changed by the operation it is used for, so one path must not be used twice (path_once); TreeSet and the sets' own methods do not."
  },
  {
   "property": "C85",
   "status": "partial",
   "theorems": [
    "Avian.X86.int_rr_partial",
    "Avian.X86.int_rr_overflow",
    "Avian.X86.int_cr",
    "Avian.X86.int_cr_defined",
    "Avian.X86.shift_constant_aborts",
    "Avian.X86.int_neg",
    "Avian.X86.int_abs"
   ],
   "note": "Full for all operations but the quotient and remainder of the least integer by -1, where the code raises the exception of a division by zero (int_rr_overflow), and shift constants outside of a byte, for which the assembler aborts (shift_constant_aborts)."
  },
  {
   "property": "C86",
   "status": "partial",
   "theorems": [
    "Avian.X86.load_ok",
    "Avian.X86.load_float_ok",
    "Avian.X86.load_char_ok",
    "Avian.X86.store_ok",
    "Avian.X86.store_float_ok",
    "Avian.X86.store_const_ok",
    "Avian.X86.move_ok",
    "Avian.X86.move_narrow_upper",
    "Avian.X86.move_char_ok",
    "Avian.X86.const_move_ok",
    "Avian.X86.const_char_ok",
    "Avian.X86.swap_ok",
    "Avian.X86.load_absolute_ok",
    "Avian.X86.push_ok",
    "Avian.X86.pop_ok",
    "Avian.X86.general_to_float_ok",
    "Avian.X86.float_to_general_ok",
    "Avian.X86.float_move_partial",
    "Avian.X86.float_move_wrong",
    "Avian.X86.const_float_ok"
   ],
   "note": "Full except for float copies between registers below xmm8 and others, where the destination is not written at all (float_move_wrong). Moves of bytes and shorts between registers extend to 32 bits only; that is what an int needs (move_narrow_upper)."
  },
  {
   "property": "C87",
   "status": "proved",
   "theorems": [
    "Avian.X86.branch_rr",
    "Avian.X86.branch_cr",
    "Avian.X86.branch_rm",
    "Avian.X86.branch_cm",
    "Avian.X86.branch_cm_defined",
    "Avian.X86.branch_placed",
    "Avian.X86.program_linked"
   ],
   "note": "branch_rm assumes that the register is not used in the address it is compared with, because ints are sign-extended in place before. Constants beyond 32 bits against memory abort (branch_cm_defined). Padding between blocks is not modelled."
  },
  {
   "property": "C88",
   "status": "partial",
   "theorems": [
    "Avian.X86.lcmp_branch",
    "Avian.X86.fold_integers",
    "Avian.X86.lcmp_call_partial",
    "Avian.X86.lcmp_wrong",
    "Avian.X86.float_branch_partial",
    "Avian.X86.float_branch_nan_wrong",
    "Avian.X86.float_branch_registers_wrong",
    "Avian.X86.fold_floats",
    "Avian.X86.fcmp_call",
    "Avian.X86.thunk_branch_partial",
    "Avian.X86.thunk_branch_wrong"
   ],
   "note": "Everything else is full; each of the four exceptions has a theorem that shows what the code does instead. Floating point values enter only through how they compare."
  },
  {
   "property": "C89",
   "status": "proved",
   "theorems": [
    "Avian.X86.call_ok",
    "Avian.X86.jump_ok",
    "Avian.X86.call_register_ok",
    "Avian.X86.jump_register_ok",
    "Avian.X86.call_memory_ok",
    "Avian.X86.jump_memory_ok",
    "Avian.X86.long_call_ok",
    "Avian.X86.long_jump_ok",
    "Avian.X86.return_ok",
    "Avian.X86.trap_ok",
    "Avian.X86.update_ok",
    "Avian.X86.patch_does",
    "Avian.X86.match_ok",
    "Avian.X86.allocate_ok",
    "Avian.X86.pop_frame_ok",
    "Avian.X86.method_returns",
    "Avian.X86.call_returns",
    "Avian.X86.stub_returns",
    "Avian.X86.frame_aligned",
    "Avian.X86.overflow_ok",
    "Avian.X86.tail_ok"
   ],
   "note": "Frames below 2 GB; stack addresses below 2^63, since the overflow check compares signed numbers; tail calls move the return address by an even number of words, as argumentFootprint gives."
  },
  {
   "property": "C90",
   "status": "proved",
   "theorems": [
    "Avian.X86.Layout.layout_ok",
    "Avian.X86.Layout.layout_defined",
    "Avian.X86.Layout.layout_disjoint",
    "Avian.X86.Layout.layout_jump",
    "Avian.X86.Layout.layout_label",
    "Avian.X86.Layout.layout_aligned",
    "Avian.X86.Layout.layout_padding",
    "Avian.X86.Layout.layout_linked"
   ],
   "note": "Offsets are natural numbers (unsigned of 32 bits in the code). The order of the blocks is given: every block once. The cache of the paddings is modelled, including that a promise may be asked before and after others."
  },
  {
   "property": "C91",
   "status": "proved",
   "theorems": [
    "Avian.X86.next_ok",
    "Avian.X86.walk_ok",
    "Avian.X86.walk_recent_ok",
    "Avian.X86.called_frame",
    "Avian.X86.tail_moves",
    "Avian.X86.check_bytes",
    "Avian.X86.skip_check",
    "Avian.X86.recent_ok",
    "Avian.X86.depth_body",
    "Avian.X86.depth_pushed",
    "Avian.X86.depth_leaving",
    "Avian.X86.depth_popping",
    "Avian.X86.recent_tails_wrong"
   ],
   "note": "Frames below 2^26 words. The lookup of the method for an address is a function here (the tree is C04). In builds with tail calls a method may end with `pop`, `add`, `jmp`: interrupted there, the wrong address is found (recent_tails_wrong)."
  },
  {
   "property": "C92",
   "status": "partial",
   "theorems": [
    "Avian.X86.float_arith_ok",
    "Avian.X86.float_arith_mem_ok",
    "Avian.X86.float_sqrt_ok",
    "Avian.X86.float_sqrt_mem_ok",
    "Avian.X86.float_convert_ok",
    "Avian.X86.float_convert_mem_ok",
    "Avian.X86.int_to_float_ok",
    "Avian.X86.int_to_float_mem_ok",
    "Avian.X86.float_negate_partial",
    "Avian.X86.float_negate_wrong",
    "Avian.X86.float_absolute_partial",
    "Avian.X86.float_absolute_wrong",
    "Avian.X86.follows_exists"
   ],
   "note": "Arithmetic, roots and conversions in full. The negation and the absolute value of a float from a register below xmm8 to one that is not, or back, are wrong (float_negate_wrong, float_absolute_wrong). What the instructions compute is a parameter (`Arith`). Remainders, the conversions to int and long, and the negation of doubles are calls of C functions (codegen/runtime.cpp:152-265, the same text as in the interpreter, C50)."
  },
  {
   "property": "C93",
   "status": "partial",
   "theorems": [
    "Avian.ConcurrentMap.get_ok",
    "Avian.ConcurrentMap.put_ok_partial",
    "Avian.ConcurrentMap.remove_ok",
    "Avian.ConcurrentMap.empty_ok",
    "Avian.ConcurrentMap.entries_ok",
    "Avian.ConcurrentMap.atomic",
    "Avian.ConcurrentMap.linearizable_partial",
    "Avian.ConcurrentMap.put_collision_wrong",
    "Avian.ConcurrentMap.far_apart_wrong",
    "Avian.ConcurrentMap.contains_wrong"
   ],
   "note": "That operations are atomic is proved for all hash codes (atomic). That they are those of a map is proved if different keys have different hash codes, which are less than 2^31 apart (linearizable_partial); get, remove and iteration do not need the first. Both conditions are needed: put_collision_wrong (for all maps with another key of the same hash code) and far_apart_wrong (eight keys). Memory is sequentially consistent for the volatile field. Lists of cells and sets are values (that the nodes of sets are not written is C84)."
  },
  {
   "property": "C94",
   "status": "partial",
   "theorems": [
    "Avian.FrameMap.sound_partial",
    "Avian.FrameMap.complete",
    "Avian.FrameMap.frame_maps_partial",
    "Avian.FrameMap.stops",
    "Avian.FrameMap.table_round_trip",
    "Avian.FrameMap.table_missing",
    "Avian.FrameMap.back_jump_wrong",
    "Avian.FrameMap.late_call_wrong",
    "Avian.FrameMap.table_size_wrong"
   ],
   "note": "sound_partial (nothing but references is visited) needs that a method with handlers does not end its first way with a jump to an instruction met before, and that no handler guards a call of a handler translated later; both are needed (back_jump_wrong, late_call_wrong). complete (every reference is visited) needs only that handlers can be reached. stops: the analysis always ends. table_round_trip and table_missing: the table of maps and the search in it, when the sizes fit 32 bits; table_size_wrong when they do not. Subroutines (jsr) are left out."
  },
  {
   "property": "C95",
   "status": "partial",
   "theorems": [
    "Avian.Chain.layout_ok_partial",
    "Avian.Chain.order_unique",
    "Avian.Chain.switch_wrong"
   ],
   "note": "layout_ok_partial needs that a further part of an instruction never directly follows the last part of the instruction in front of it (`Proper`); this is needed (switch_wrong). order_unique: there is only one such order, so the statement fixes the layout."
  },
  {
   "property": "C96",
   "status": "partial",
   "theorems": [
    "Avian.Handlers.handler_ok_partial",
    "Avian.Handlers.dead_end_wrong",
    "Avian.Handlers.subroutine_end_wrong",
    "Avian.Handlers.line_ok_partial",
    "Avian.Handlers.one_byte_line_wrong",
    "Avian.Handlers.empty_line_never_ends"
   ],
   "note": "handler_ok_partial needs that the end of each range is an instruction that was translated, or the end of a method without subroutines; both are needed (dead_end_wrong, subroutine_end_wrong). line_ok_partial needs that each line has a translated instruction in front of its last byte (one_byte_line_wrong) and that the position is not the very start of an instruction in front (empty_line_never_ends). The order of the code is C95."
  },
  {
   "property": "C97",
   "status": "partial",
   "theorems": [
    "Avian.PikeVM.matches_ok",
    "Avian.PikeVM.matches_java_partial",
    "Avian.PikeVM.find_ok_partial",
    "Avian.PikeVM.find_not_match",
    "Avian.PikeVM.find_not_leftmost",
    "Avian.PikeVM.find_past_end",
    "Avian.PikeVM.boundary_end_wrong",
    "Avian.PikeVM.boundary_end",
    "Avian.PikeVM.dot_wrong",
    "Avian.PikeVM.line_end_wrong",
    "Avian.PikeVM.group_numbers_wrong",
    "Avian.PikeVM.group_lost"
   ],
   "note": "matches_ok is for the dialect of the code (which differs in `.`, `$` at a final line terminator and `\\b`, `\\B` at the end of the text: dot_wrong, line_end_wrong, boundary_end_wrong); matches_java_partial is Java's dialect for texts without line terminators and zeros and expressions without `\\b`, `\\B`. find_ok_partial gives the answer unless there is an exception; where the match is is wrong in general (find_not_match, find_not_leftmost). Groups have no positive theorem (group_numbers_wrong, group_lost). The parser, lookbehind and TrivialPattern are not modelled."
  },
  {
   "property": "C98",
   "status": "proved",
   "theorems": [
    "Avian.HeapWalk.walks_ok",
    "Avian.HeapWalk.walks_walk",
    "Avian.HeapWalk.dump_ok"
   ],
   "note": "The references of an object are a sorted list of word offsets (the object mask). dump_ok needs fewer than 2^32 objects and that sizes and names fit in 32 bits."
  },
  {
   "property": "C99",
   "status": "proved",
   "theorems": [
    "Avian.BootImage.image_ok"
   ],
   "note": "What is copied of an object (type maps, object masks of classes) is a parameter that may depend on the first reference to it; references of an object go to words of their own inside what is copied. Words are 64-bit, little-endian, for the generator and for the target. image_ok also says that the generator does not give up when the rooms of the objects add up to less than the capacity."
  },
  {
   "property": "C100",
   "status": "partial",
   "theorems": [
    "Avian.PlainPattern.split_ok",
    "Avian.PlainPattern.cut_join",
    "Avian.PlainPattern.cut_unique",
    "Avian.PlainPattern.cut_length",
    "Avian.PlainPattern.cut_all",
    "Avian.PlainPattern.plain_find",
    "Avian.PlainPattern.plain_lang",
    "Avian.PlainPattern.plain_matches",
    "Avian.PlainPattern.plain_find_lang",
    "Avian.PlainPattern.replaceAll_ok_partial",
    "Avian.PlainPattern.replaceFirst_ok_partial",
    "Avian.PlainPattern.regexSplit_ok_partial",
    "Avian.PlainPattern.replace_empty_text",
    "Avian.PlainPattern.replaceAll_empty_match_wrong",
    "Avian.PlainPattern.plain_find_stuck",
    "Avian.PlainPattern.split_empty",
    "Avian.PlainPattern.regexSplit_limit_wrong",
    "Avian.PlainPattern.regexSplit_limit_case",
    "Avian.PlainPattern.regexSplit_trailing_wrong",
    "Avian.PlainPattern.regexSplit_negative_wrong",
    "Avian.PlainPattern.regexSplit_empty_match_fails"
   ],
   "note": "Proved for plain patterns that are not empty: split for every limit, replaceAll and replaceFirst for texts that are not empty, and that a pattern is taken for plain only if it matches exactly this text. The code does not have the property for empty texts (exception), for matches of the empty text, and for limits and trailing empty pieces with other patterns; each is shown by a theorem. Signs with a meaning in replacements ($ and backslash) are not treated by the code and are not part of the specification here."
  },
  {
   "property": "C101",
   "status": "partial",
   "theorems": [
    "Avian.JProperties.load_java_partial",
    "Avian.JProperties.store_load_partial",
    "Avian.JProperties.readUtf16_ok",
    "Avian.JProperties.trim_eq",
    "Avian.JProperties.equals_wrong",
    "Avian.JProperties.store_escape_wrong",
    "Avian.JProperties.comment_wrong",
    "Avian.JProperties.escape_letter_wrong",
    "Avian.JProperties.escaped_comment_wrong",
    "Avian.JProperties.value_trimmed_wrong",
    "Avian.JProperties.continuation_wrong",
    "Avian.JProperties.carriage_return_wrong",
    "Avian.JProperties.store_load_not_ascii"
   ],
   "note": "load_java_partial: every entry without tabs, carriage returns and form feeds, without # or ! in front of the key and without white space at the ends of the value is loaded from Java's format. store_load_partial: entries of ASCII characters that need no escapes. What is missing is wrong in the code, as the other theorems show."
  },
  {
   "property": "C102",
   "status": "partial",
   "theorems": [
    "Avian.JniRefs.live_ok_partial",
    "Avian.JniRefs.step_ok_partial",
    "Avian.JniRefs.ret_frees_partial",
    "Avian.JniRefs.global_ok",
    "Avian.JniRefs.global_step_ok",
    "Avian.JniRefs.global_kept",
    "Avian.JniRefs.interp_live_ok",
    "Avian.JniRefs.interp_step_ok",
    "Avian.JniRefs.delete_outer_wrong",
    "Avian.JniRefs.delete_argument_wrong",
    "Avian.JniRefs.shared_kept_wrong",
    "Avian.JniRefs.weak_cleared_wrong",
    "Avian.JniRefs.global_of_cleared_wrong"
   ],
   "note": "With compiled code (live_ok_partial, step_ok_partial, ret_frees_partial): references are deleted in the frame in which they were given, and arguments of the native method are not deleted. What is missing is wrong in the code (delete_outer_wrong, delete_argument_wrong). With the interpreter there is no such restriction. Weak references that are cleared are not told from others as JNI says (weak_cleared_wrong, global_of_cleared_wrong)."
  },
  {
   "property": "C103",
   "status": "partial",
   "theorems": [
    "Avian.NativeCall.dynamicCall_ok",
    "Avian.NativeCall.native_args_ok",
    "Avian.NativeCall.result_ok",
    "Avian.NativeCall.va_ok",
    "Avian.NativeCall.jvalue_ok_partial",
    "Avian.NativeCall.jvalue_wrong",
    "Avian.NativeCall.reflect_ok_partial",
    "Avian.NativeCall.reflect_negative_wrong",
    "Avian.NativeCall.reflect_widening_wrong",
    "Avian.NativeCall.reflect_unchecked_wrong"
   ],
   "note": "Calls of native functions and calls with variable arguments are complete. jvalue_ok_partial: small values were stored in the union as ints; reflect_ok_partial: arguments have the declared types, bytes and shorts are not negative. What is missing is wrong in the code (jvalue_wrong, reflect_negative_wrong, reflect_widening_wrong, reflect_unchecked_wrong). x86-64 with System V convention and compiled code; the machine code of vmInvoke is not modelled."
  },
  {
   "property": "C104",
   "status": "partial",
   "theorems": [
    "Avian.ByteBuf.bytes_bigEndian",
    "Avian.ByteBuf.value_bigEndian",
    "Avian.ByteBuf.put_ok",
    "Avian.ByteBuf.put_keeps",
    "Avian.ByteBuf.put_full",
    "Avian.ByteBuf.put_readOnly",
    "Avian.ByteBuf.get_ok",
    "Avian.ByteBuf.get_empty",
    "Avian.ByteBuf.put_get",
    "Avian.ByteBuf.putAll_getAll",
    "Avian.ByteBuf.allocate_ok",
    "Avian.ByteBuf.putAt_ok",
    "Avian.ByteBuf.putAt_outside_partial",
    "Avian.ByteBuf.putAt_overflow_wrong",
    "Avian.ByteBuf.getAt_ok",
    "Avian.ByteBuf.getAt_outside_partial",
    "Avian.ByteBuf.getAt_negative_wrong",
    "Avian.ByteBuf.views_ok",
    "Avian.ByteBuf.slice_readOnly_wrong",
    "Avian.ByteBuf.wrap_wrong",
    "Avian.ByteBuf.putArray_ok",
    "Avian.ByteBuf.getArray_ok_partial",
    "Avian.ByteBuf.getArray_direct_wrong",
    "Avian.ByteBuf.putArray_direct_wrong",
    "Avian.ByteBuf.compact_ok_partial",
    "Avian.ByteBuf.compact_direct_wrong",
    "Avian.ByteBuf.compareTo_ok",
    "Avian.ByteBuf.equals_ok"
   ],
   "note": "All operations at the position and within the limit are proved for both kinds of buffers. What is missing is wrong in the code: indices below zero are read, indices near the largest int and lengths below zero pass the checks, a direct buffer does not move its position when an array is got and copies overlapping places with memcpy in compact. put(ByteBuffer) is modelled for compact only."
  },
  {
   "property": "C105",
   "status": "proved",
   "theorems": [
    "Avian.Crc32.crc_ok",
    "Avian.Crc32.remainder_unique",
    "Avian.Crc32.update_eq",
    "Avian.Crc32.parts",
    "Avian.Crc32.burst_noticed",
    "Avian.Crc32.reflect_getLsbD",
    "Avian.Crc32.multiple_small"
   ],
   "note": "crc_ok: after any message there is a remainder in the sense of the standard, and the value is its checksum; remainder_unique: it is the only one. update_eq: the table is never left and one update is eight steps of division."
  },
  {
   "property": "C106",
   "status": "partial",
   "theorems": [
    "Avian.Tokenizer.tokenizer_ok_partial",
    "Avian.Tokenizer.nextToken_ok_partial",
    "Avian.Tokenizer.nextToken_position",
    "Avian.Tokenizer.tokens_exist",
    "Avian.Tokenizer.countTokens_ok",
    "Avian.Tokenizer.hasMoreTokens_ok",
    "Avian.Tokenizer.delimiters_wrong",
    "Avian.Tokenizer.change_wrong"
   ],
   "note": "Without delimiters as tokens everything is proved; countTokens and hasMoreTokens also with them. With them nextToken never gets past a delimiter (delimiters_wrong), and hasMoreTokens skips delimiters, which a change of the delimiters would have needed (change_wrong)."
  },
  {
   "property": "C107",
   "status": "proved",
   "theorems": [
    "Avian.JRandom.step_lcg",
    "Avian.JRandom.setSeed_toNat",
    "Avian.JRandom.next_toNat",
    "Avian.JRandom.full_period",
    "Avian.JRandom.step_onto",
    "Avian.JRandom.accept_iff",
    "Avian.JRandom.share_iff",
    "Avian.JRandom.nextInt_share",
    "Avian.JRandom.nextInt_again",
    "Avian.JRandom.nextInt_pow",
    "Avian.JRandom.nextInt_range",
    "Avian.JRandom.nextInt_refused",
    "Avian.JRandom.nextInt_ends",
    "Avian.JRandom.nextInt_onto",
    "Avian.JRandom.nextLong_ok",
    "Avian.JRandom.nextDouble_range",
    "Avian.JRandom.nextBytes_ok",
    "Avian.JRandom.nextBytes_get"
   ],
   "note": "The division of nextDouble by 2^53 is floating point and not modelled: what is divided is shown to be below 2^53."
  },
  {
   "property": "C108",
   "status": "partial",
   "theorems": [
    "Avian.JCalendar.fields_ok_partial",
    "Avian.JCalendar.getTime_ok_partial",
    "Avian.JCalendar.time_fields_time_partial",
    "Avian.JCalendar.fields_time_fields_partial",
    "Avian.JCalendar.date_unique",
    "Avian.JCalendar.format_ok_partial",
    "Avian.JCalendar.parse_ok_partial",
    "Avian.JCalendar.parse_format_partial",
    "Avian.JCalendar.parse_short",
    "Avian.JCalendar.year_2100_wrong",
    "Avian.JCalendar.before_1970_wrong",
    "Avian.JCalendar.before_1970",
    "Avian.JCalendar.month_14_wrong"
   ],
   "note": "Proved for every time and date from 1970 to 2099. From 2100 on (not a leap year) and before 1970 the code is wrong (year_2100_wrong, before_1970_wrong, before_1970)."
  },
  {
   "property": "C109",
   "status": "partial",
   "theorems": [
    "Avian.TimeUnits.convert_ok_partial",
    "Avian.TimeUnits.convert_back",
    "Avian.TimeUnits.scale_wrong",
    "Avian.TimeUnits.not_monotone",
    "Avian.TimeUnits.waiting_exact",
    "Avian.TimeUnits.waiting_large_partial",
    "Avian.TimeUnits.waiting_none"
   ],
   "note": "Missing: results of 2^64 and more, where the code does not notice the overflow (scale_wrong, not_monotone)."
  },
  {
   "property": "C110",
   "status": "partial",
   "theorems": [
    "Avian.EnumSet.enumSet_partial",
    "Avian.EnumSet.members_ok",
    "Avian.EnumSet.start_ok",
    "Avian.EnumSet.step_ok",
    "Avian.EnumSet.many_constants_wrong"
   ],
   "note": "Missing: size and iterators of types with more than 64 constants, which the code gets wrong (many_constants_wrong, from BitSet.nextBit)."
  },
  {
   "property": "C111",
   "status": "proved",
   "theorems": [
    "Avian.Atomics.linearizable",
    "Avian.Atomics.none_lost",
    "Avian.Atomics.effect_called",
    "Avian.Atomics.counter",
    "Avian.Atomics.tickets",
    "Avian.Atomics.tickets_distinct",
    "Avian.Atomics.counting",
    "Avian.Atomics.progress"
   ],
   "note": "Reads, writes and compareAndSwap of the field are steps (sequential consistency, as the field is volatile); memory barriers and the lock used where no 64-bit compare-and-swap exists are not modelled."
  },
  {
   "property": "C112",
   "status": "proved",
   "theorems": [
    "Avian.MessageFormat.format_pieces",
    "Avian.MessageFormat.every_pattern",
    "Avian.MessageFormat.format_total",
    "Avian.MessageFormat.escape_format"
   ],
   "note": "Arguments are their texts (toString) or null."
  },
  {
   "property": "C113",
   "status": "proved",
   "theorems": [
    "Avian.Urls.parse_parts",
    "Avian.Urls.set_splits",
    "Avian.Urls.toExternalForm_text",
    "Avian.Urls.parse_written",
    "Avian.Urls.parse_read",
    "Avian.Urls.jar_ok",
    "Avian.Urls.port_changes"
   ],
   "note": "Uses C54 for the port. Connections are not modelled."
  },
  {
   "property": "C114",
   "status": "partial",
   "theorems": [
    "Avian.Parking.exec_permit",
    "Avian.Parking.park_waits",
    "Avian.Parking.no_lost_wakeup",
    "Avian.Parking.told_returns",
    "Avian.Parking.unlimited_returns",
    "Avian.Parking.limited_goes_on",
    "Avian.Parking.interrupt_once_partial",
    "Avian.Parking.answers_partial",
    "Avian.Parking.interrupt_twice",
    "Avian.Parking.interrupt_unseen",
    "Avian.Parking.parkNanos_ok",
    "Avian.Parking.parkUntil_ok"
   ],
   "note": "Missing: each interrupt is told once also if Object.wait ends in the middle of an interrupt, where the code tells it twice or sets the flag of a thread that sleeps on (interrupt_twice, interrupt_unseen). Sections under interruptLock are steps (C28 to C31)."
  },
  {
   "property": "C115",
   "status": "partial",
   "theorems": [
    "Avian.Shuffle.shuffle_perm",
    "Avian.Shuffle.shuffle_reaches",
    "Avian.Shuffle.shuffle_unfair",
    "Avian.Shuffle.reverse_ok"
   ],
   "note": "Missing: all orders equally likely, which the code violates (shuffle_unfair: of the 27 choices for three elements, 4 give one order and 5 another). That nextInt stays in its range is C107."
  },
  {
   "property": "C116",
   "status": "partial",
   "theorems": [
    "Avian.FormatString.format_ok_partial",
    "Avian.FormatString.too_few_refused",
    "Avian.FormatString.index_refused",
    "Avian.FormatString.zeros_before_sign",
    "Avian.FormatString.dates_refused",
    "Avian.FormatString.precision_alone_refused",
    "Avian.FormatString.format_wrong"
   ],
   "note": "Proved for literals, %%, and s, S, b, B, d, x, X with index, width, left and zero alignment (not zeros before negative numbers, not hexadecimal negative Longs). Missing: dates, which are always refused (dates_refused), precision, refused without a width (precision_alone_refused), and what format_wrong shows to be wrong; characters, hash codes and floating-point numbers are a parameter."
  }
 ]
}