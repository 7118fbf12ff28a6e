{
 "claims": [
  {
   "property": "C01",
   "status": "proved",
   "theorems": [
    "Verif.Fallback.fallback_linearizable",
    "Verif.Fallback.fallback_linearizable_of_calls",
    "Verif.Fallback.u128Narrow_linearizable",
    "Verif.Fallback.u128Wide_linearizable",
    "Verif.Fallback.u64Wide_linearizable"
   ],
   "note": "Interleaving memory; side condition is only the version wrap-around bound (C07)."
  },
  {
   "property": "C02",
   "status": "proved",
   "theorems": [
    "Verif.Fallback.load_not_torn"
   ],
   "note": ""
  },
  {
   "property": "C03",
   "status": "proved",
   "theorems": [
    "Verif.Fallback.store_only_by_successful_writer",
    "Verif.Fallback.version_only_by_successful_writer",
    "Verif.Fallback.free_lock_encodes_version"
   ],
   "note": ""
  },
  {
   "property": "C04",
   "status": "proved",
   "theorems": [
    "Verif.Fallback.mutual_exclusion",
    "Verif.Fallback.words_change_only_in_section"
   ],
   "note": ""
  },
  {
   "property": "C05",
   "status": "proved",
   "theorems": [
    "Verif.Fallback.plain_read_no_race",
    "Verif.Fallback.plain_read_current"
   ],
   "note": ""
  },
  {
   "property": "C06",
   "status": "proved",
   "theorems": [
    "Verif.Fallback.no_deadlock",
    "Verif.Fallback.completes_alone"
   ],
   "note": ""
  },
  {
   "property": "C07",
   "status": "proved",
   "theorems": [
    "Verif.Fallback.validation_exact_narrow",
    "Verif.Fallback.validation_exact_wide",
    "Verif.Fallback.wrap_bound_exact"
   ],
   "note": "Exactness of the bound is shown for the 64-bit-version lock."
  },
  {
   "property": "C08",
   "status": "proved",
   "theorems": [
    "Verif.Fallback.other_objects_untouched",
    "Verif.Fallback.per_object_linearizable"
   ],
   "note": ""
  },
  {
   "property": "C09",
   "status": "proved",
   "theorems": [
    "Verif.WM.fallback_message_passing",
    "Verif.WM.plain_read_knows_all_writes",
    "Verif.WM.write_knows_all_plain_reads",
    "Verif.WM.plain_read_words_only",
    "Verif.WM.words_not_swapped",
    "Verif.WM.fallback_refines_native"
   ],
   "note": "Weak memory: view machine of WM/Machine.lean; orderings as in Fallback/Code.lean. Bound on number of calls = version counter bound."
  },
  {
   "property": "C10",
   "status": "proved",
   "theorems": [
    "Verif.WM.fallback_refines_native",
    "Verif.WM.fallback_untorn",
    "Verif.WM.fallback_coherent",
    "Verif.WM.u128_narrow_refines_native",
    "Verif.WM.u128_wide_refines_native",
    "Verif.WM.u64_wide_refines_native"
   ],
   "note": "Refinement of Spec/WeakMemory.lean (native atomics)."
  },
  {
   "property": "C11",
   "status": "proved",
   "theorems": [
    "Verif.WM.fallback_sc_recency",
    "Verif.WM.fallback_store_buffering",
    "Verif.WM.fallback_sc_fences",
    "Verif.WM.fallback_store_buffering_mixed"
   ],
   "note": "SeqCst access = SC fence; acquire-release access; SC fence."
  },
  {
   "property": "C12",
   "status": "proved",
   "theorems": [
    "Verif.Int.int_linearizable",
    "Verif.Int.update_writes_at_most_once",
    "Verif.Bool.bool_linearizable"
   ],
   "note": ""
  },
  {
   "property": "C13",
   "status": "proved",
   "theorems": [
    "Verif.Int.int_linearizable",
    "Verif.Int.loop_finishes",
    "Verif.Int.failure_means_interference",
    "Verif.Int.int_ordering_kept"
   ],
   "note": ""
  },
  {
   "property": "C14",
   "status": "proved",
   "theorems": [
    "Verif.Rv.sub_word_exact",
    "Verif.Rv.sub_word_linearizable"
   ],
   "note": ""
  },
  {
   "property": "C15",
   "status": "proved",
   "theorems": [
    "Verif.load_panics_iff",
    "Verif.store_panics_iff",
    "Verif.cas_panics_iff",
    "Verif.Fallback.rejected_before_any_access",
    "Verif.Fallback.panics_only_if_rejected",
    "Verif.Irq.armv4t_load_release_does_not_panic"
   ],
   "note": "Exception found and recorded as a theorem: the native load/store of interrupt/armv4t.rs ignore the ordering, so load(Release) does not panic there."
  },
  {
   "property": "C16",
   "status": "proved",
   "theorems": [
    "Verif.upgrade_is_lub",
    "Verif.MemOrd.eq_of_gives"
   ],
   "note": ""
  },
  {
   "property": "C17",
   "status": "proved",
   "theorems": [
    "Verif.Bool.bool_byte_valid"
   ],
   "note": ""
  },
  {
   "property": "C18",
   "status": "proved",
   "theorems": [
    "Verif.Bool.bool_linearizable",
    "Verif.Bool.bool_single_access",
    "Verif.Bool.bool_ordering_kept",
    "Verif.Bool.bool_update_ordering_kept"
   ],
   "note": ""
  },
  {
   "property": "C19",
   "status": "proved",
   "theorems": [
    "Verif.Ptr.ptr_linearizable",
    "Verif.Ptr.ptr_add_sub_restores",
    "Verif.Ptr.ptr_add_exact",
    "Verif.Ptr.above_unique",
    "Verif.Ptr.below_unique",
    "Verif.Ptr.ptr_ordering_kept"
   ],
   "note": "Pointers are addresses; provenance is not modelled."
  },
  {
   "property": "C20",
   "status": "proved",
   "theorems": [
    "Verif.Int.int_linearizable",
    "Verif.Ptr.ptr_linearizable",
    "Verif.Int.bit_post_unique",
    "Verif.Rv.sub_word_exact"
   ],
   "note": ""
  },
  {
   "property": "C21",
   "status": "proved",
   "theorems": [
    "Verif.Float.float_linearizable",
    "Verif.Float.neg_neg_restores",
    "Verif.Float.abs_abs_same"
   ],
   "note": "A float is its bit pattern; to_bits/from_bits are the identity."
  },
  {
   "property": "C22",
   "status": "proved",
   "theorems": [
    "Verif.Float.float_linearizable",
    "Verif.Float.float_loop_finishes",
    "Verif.Float.float_ordering_kept"
   ],
   "note": "Float arithmetic is a parameter (a relation, so NaN bits are unconstrained)."
  },
  {
   "property": "C23",
   "status": "proved",
   "theorems": [
    "Verif.Detect.one_answer",
    "Verif.Detect.one_answer_of_stable",
    "Verif.Detect.each_explained",
    "Verif.Detect.detection_waitFree",
    "Verif.Detect.X86.demo_race",
    "Verif.Detect.X86.store_would_mix"
   ],
   "note": "Memory is weaker than any model with acyclic po U rf: a relaxed load may return any value ever written; only RMW atomicity is kept."
  },
  {
   "property": "C24",
   "status": "proved",
   "theorems": [
    "Verif.Detect.X86.x86_no_mixing",
    "Verif.Detect.X86.x86_intrinsics_consistent",
    "Verif.Detect.Powerpc64.powerpc64_consistent",
    "Verif.Detect.Powerpc64.powerpc64_aix_consistent",
    "Verif.Detect.Riscv.riscv_consistent",
    "Verif.Detect.ArmLinux.armLinux_consistent"
   ],
   "note": ""
  },
  {
   "property": "C25",
   "status": "proved",
   "theorems": [
    "Verif.Detect.X86.x86_no_mixing",
    "Verif.Detect.X86.x86_intrinsics_consistent",
    "Verif.Detect.Powerpc64.powerpc64_consistent",
    "Verif.Detect.Riscv.riscv_consistent",
    "Verif.Detect.ArmLinux.armLinux_consistent",
    "Verif.Detect.A64.a64_lockFree"
   ],
   "note": ""
  },
  {
   "property": "C26",
   "status": "proved",
   "theorems": [
    "Verif.Fallback.Table.lock_in_range",
    "Verif.Fallback.Table.lock_same",
    "Verif.Fallback.Table.locks_spread"
   ],
   "note": ""
  },
  {
   "property": "C27",
   "status": "proved",
   "theorems": [
    "Verif.Fallback.Table.backoff_bounded"
   ],
   "note": ""
  },
  {
   "property": "C28",
   "status": "proved",
   "theorems": [
    "Verif.X86.rmw3_value",
    "Verif.X86.rmw2_value"
   ],
   "note": "x86_64 backend, instruction by instruction (Intel SDM semantics of the register instructions used)."
  },
  {
   "property": "C29",
   "status": "proved",
   "theorems": [
    "Verif.X86.x86_linearizable",
    "Verif.X86.x86_finishes",
    "Verif.X86.x86_failure_means_interference",
    "Verif.X86.halves_are_union"
   ],
   "note": "x86_64 backend; includes preservation of rbx and of every register not declared as an output."
  },
  {
   "property": "C30",
   "status": "proved",
   "theorems": [
    "Verif.Pair.whole_eq",
    "Verif.Pair.pair_eq",
    "Verif.Pair.whole_pair",
    "Verif.Pair.pair_whole",
    "Verif.Pair.arm_pair_is_memory_order",
    "Verif.Pair.zero_extend_eq"
   ],
   "note": ""
  },
  {
   "property": "C31",
   "status": "proved",
   "theorems": [
    "Verif.Irq.irq_linearizable",
    "Verif.Irq.irq_exclusive",
    "Verif.Irq.spec_is_cell",
    "Verif.Cs.cs_linearizable",
    "Verif.Cs.cs_exclusive",
    "Verif.Cs.feature_is_cell",
    "Verif.Cs.esp32_feature_is_cell",
    "Verif.Cs.esp32_panics_iff",
    "Verif.Cs.esp32_native_only_internal",
    "Verif.Cs.esp32_object_on_one_side",
    "Verif.Cs.esp32_bytes"
   ],
   "note": "All six disable/restore pairs; the critical-section feature; ESP32 PSRAM dispatch."
  },
  {
   "property": "C32",
   "status": "proved",
   "theorems": [
    "Verif.Irq.status_restored",
    "Verif.Irq.uninterrupted",
    "Verif.Cs.cs_restored"
   ],
   "note": ""
  },
  {
   "property": "C33",
   "status": "proved",
   "theorems": [
    "Verif.Int.int_linearizable",
    "Verif.Int.bin_post_unique",
    "Verif.Int.binF_post_unique",
    "Verif.Int.un_post_unique",
    "Verif.Int.sub_eq_add_neg",
    "Verif.Int.not_eq_xor",
    "Verif.Int.plain_form_same"
   ],
   "note": ""
  },
  {
   "property": "C34",
   "status": "proved",
   "theorems": [
    "Verif.Build.version_no_panic",
    "Verif.Build.version_reads_output",
    "Verif.Build.number_read_exact",
    "Verif.Build.probe_iff"
   ],
   "note": "Complete characterisation (iff) of the version read from any text of lines; no panic on any UTF-8 text; probe is the lexicographic comparison. Running the compiler and reading environment variables are not modelled."
  },
  {
   "property": "C35",
   "status": "proved",
   "theorems": [
    "Verif.Build.rustflags_no_panic",
    "Verif.Build.rustflags_reads_command_line",
    "Verif.Build.features_of_list",
    "Verif.Build.allowed_iff",
    "Verif.Build.strip_prefix_exact",
    "Verif.Build.strip_suffix_exact"
   ],
   "note": "For every command line built from rustc's argument spellings; no panic on any UTF-8 text. Only ASCII white space separates Cargo's allow-features list in the model."
  },
  {
   "property": "C36",
   "status": "proved",
   "theorems": [
    "Verif.Detect.X86.x86_only_reported",
    "Verif.Detect.X86.x86_fallback_only",
    "Verif.Detect.X86.decode_flags",
    "Verif.Detect.A64.a64_only_reported",
    "Verif.Detect.A64.decodeAuxv_flags",
    "Verif.Detect.A64.decodeReg_flags",
    "Verif.Detect.A64.decodePlain_flags",
    "Verif.Detect.Powerpc64.powerpc64_consistent",
    "Verif.Detect.Riscv.riscv_consistent"
   ],
   "note": ""
  },
  {
   "property": "C37",
   "status": "proved",
   "theorems": [
    "Verif.Arm.arm_rmw3_value",
    "Verif.Arm.arm_rmw3_value_casp",
    "Verif.Arm.arm_rmw2_value",
    "Verif.Arm.arm_halves_are_union",
    "Verif.Arm.arm_linearizable",
    "Verif.Arm.arm_finishes",
    "Verif.Arm.select_good"
   ],
   "note": "All asm blocks of aarch64.rs, instruction by instruction, and the selection between them, on both byte orders. Instruction meanings (Arm ARM) are trusted; encoded words go through a decoder written from the manual."
  },
  {
   "property": "C38",
   "status": "proved",
   "theorems": [
    "Verif.Arm.arm_acquire",
    "Verif.Arm.arm_release",
    "Verif.Arm.arm_seqCst",
    "Verif.Arm.arm_msvc_fence",
    "Verif.Arm.arm_events_exist"
   ],
   "note": "Ordering within a thread by the Arm model's barrier-ordered-before relation, for every execution and every context. Compare-exchange: for the stronger of the success and failure ordering. Cross-thread consequences are the Arm model's (trusted, not modelled)."
  },
  {
   "property": "C39",
   "status": "proved",
   "theorems": [
    "Verif.Ppc.ppc_rmw3_value",
    "Verif.Ppc.ppc_neg_value",
    "Verif.Ppc.ppc_halves_are_union",
    "Verif.Ppc.ppc_linearizable",
    "Verif.Ppc.ppc_finishes",
    "Verif.Ppc.ppc_fallback",
    "Verif.Ppc.ppc_no_fallback"
   ],
   "note": "All asm blocks of powerpc64.rs, instruction by instruction, and the selection between them and the lock. Instruction meanings (Power ISA) are trusted."
  },
  {
   "property": "C40",
   "status": "proved",
   "theorems": [
    "Verif.Ppc.ppc_acquire",
    "Verif.Ppc.ppc_release",
    "Verif.Ppc.ppc_seqCst",
    "Verif.Ppc.ppc_events_exist"
   ],
   "note": "Ordering within a thread by sync, lwsync and dependent branch + isync, for every execution and every context; cumulativity and cross-thread consequences are the Power model's (trusted, not modelled). That a branch on the outcome of stqcx. depends on the paired lqarx is part of the trusted reading of the ISA."
  },
  {
   "property": "C41",
   "status": "proved",
   "theorems": [
    "Verif.S390x.s390x_rmw3_value",
    "Verif.S390x.s390x_rmw2_value",
    "Verif.S390x.s390x_extract_cc",
    "Verif.S390x.s390x_halves_are_union",
    "Verif.S390x.s390x_linearizable",
    "Verif.S390x.s390x_finishes"
   ],
   "note": "All asm blocks of s390x.rs, instruction by instruction, with and without each optional facility. Instruction meanings (Principles of Operation) are trusted."
  },
  {
   "property": "C42",
   "status": "proved",
   "theorems": [
    "Verif.S390x.s390x_acquire",
    "Verif.S390x.s390x_release",
    "Verif.S390x.s390x_seqCst",
    "Verif.S390x.s390x_events_exist"
   ],
   "note": "Ordering within a thread: everything in order except store-then-fetch without serialization; acquire and release therefore come for free, SeqCst needs the serialization after the store."
  },
  {
   "property": "C43",
   "status": "proved",
   "theorems": [
    "Verif.Rv64.rv64_next_value",
    "Verif.Rv64.rv64_encodings",
    "Verif.Rv64.rv64_halves_are_union",
    "Verif.Rv64.rv64_linearizable",
    "Verif.Rv64.rv64_finishes",
    "Verif.Rv64.rv64_fallback",
    "Verif.Rv64.lockOp_sem",
    "Verif.Rv64.rv64_no_fallback"
   ],
   "note": "The asm blocks of riscv64.rs and the Rust loops around them, statement by statement, for both assembler versions and both compile-time and run-time selection. The meaning of amocas.q and its encoding are trusted; the lock-based implementation is C01."
  },
  {
   "property": "C44",
   "status": "proved",
   "theorems": [
    "Verif.Rv64.rv64_acquire",
    "Verif.Rv64.rv64_release",
    "Verif.Rv64.rv64_seqCst",
    "Verif.Rv64.rv64_seqCst_after_everything",
    "Verif.Rv64.rv64_events_exist"
   ],
   "note": "Ordering within a thread by RVWMO's fence, acquire and release rules; a failing amocas.q has no release semantics."
  },
  {
   "property": "C45",
   "status": "proved",
   "theorems": [
    "Verif.Rv32.rv32_next_value",
    "Verif.Rv32.rv32_encodings",
    "Verif.Rv32.rv32_halves_are_union",
    "Verif.Rv32.rv32_linearizable",
    "Verif.Rv32.rv32_finishes",
    "Verif.Rv32.rv32_fallback",
    "Verif.Rv32.lockOp_sem",
    "Verif.Rv32.rv32_no_fallback"
   ],
   "note": "The asm blocks of riscv32.rs and the Rust loops around them, as for riscv64. The meaning of amocas.d and its encoding are trusted."
  },
  {
   "property": "C46",
   "status": "proved",
   "theorems": [
    "Verif.Rv32.rv32_acquire",
    "Verif.Rv32.rv32_release",
    "Verif.Rv32.rv32_seqCst",
    "Verif.Rv32.rv32_seqCst_after_everything",
    "Verif.Rv32.rv32_events_exist"
   ],
   "note": "As C44."
  },
  {
   "property": "C47",
   "status": "proved",
   "theorems": [
    "Verif.Kuser.kuser_next_value",
    "Verif.Kuser.kuser_halves_are_union",
    "Verif.Kuser.kuser_linearizable",
    "Verif.Kuser.kuser_finishes",
    "Verif.Kuser.kuser_fallback",
    "Verif.Kuser.lockOp_sem",
    "Verif.Kuser.kuser_events_exist"
   ],
   "note": "The Rust code of atomic64/arm_linux.rs statement by statement. What __kuser_cmpxchg64 does is trusted (kernel documentation); the lock-based implementation is C01."
  },
  {
   "property": "C48",
   "status": "proved",
   "theorems": [
    "Verif.Kuser.kuser_acqRel",
    "Verif.Kuser.kuser_seqCst",
    "Verif.ArmLinux.armLinux_linearizable",
    "Verif.ArmLinux.armLinux_acquire",
    "Verif.ArmLinux.armLinux_release",
    "Verif.ArmLinux.armLinux_seqCst",
    "Verif.ArmLinux.armLinux_mixed",
    "Verif.ArmLinux.inner_failure_not_acquire"
   ],
   "note": "Barriers of the kernel helpers and the loop in the compiler's runtime library are trusted; the narrow inner operations are taken to be single steps."
  },
  {
   "property": "C49",
   "status": "proved",
   "theorems": [
    "Verif.Riscv.riscv_linearizable",
    "Verif.Riscv.riscv_acquire",
    "Verif.Riscv.riscv_release",
    "Verif.Riscv.riscv_seqCst",
    "Verif.Riscv.riscv_subWord_order"
   ],
   "note": "Loads, stores and AMOs of riscv.rs at any width up to the register's; sub-word values are C14. The meaning of the instructions and RVWMO's rules are trusted."
  },
  {
   "property": "C50",
   "status": "proved",
   "theorems": [
    "Verif.Fence.fence_panics",
    "Verif.Fence.fence_works",
    "Verif.Fence.msp430_compiler_fence",
    "Verif.Fence.x86_needs_locked",
    "Verif.ArmLinux.armLinux_fence"
   ],
   "note": "The crate's own fences (x86, MSP430, pre-v6 Arm Linux) and the selection in lib.rs; core::sync::atomic::fence elsewhere, and its emitting no instruction for non-SeqCst on x86, is assumed."
  },
  {
   "property": "C51",
   "status": "proved",
   "theorems": [
    "Verif.X86.Fn.x86_native_tso",
    "Verif.X86.Fn.x86_seqCst_linearizable",
    "Verif.X86.Fn.x86_fenced_sc",
    "Verif.X86.Fn.x86_fallback",
    "Verif.X86.Fn.sb_runs",
    "Verif.X86.Fn.sb_not_sc"
   ],
   "note": "The x86-TSO machine (Owens, Sarkar, Sewell) is trusted."
  },
  {
   "property": "C52",
   "status": "proved",
   "theorems": [
    "Verif.X86.Fn.x86_ra",
    "Verif.X86.Fn.ra_publication",
    "Verif.X86.Fn.mp_not_ra",
    "Verif.X86.Fn.mp_never",
    "Verif.X86.Fn.sb_ra"
   ],
   "note": "On the x86-TSO machine; every store counts as at least Release and every load as at least Acquire."
  },
  {
   "property": "C53",
   "status": "proved",
   "theorems": [
    "Verif.Detect.Os.cpuid_block",
    "Verif.Detect.Os.x86_exact",
    "Verif.Detect.Os.x86_sound",
    "Verif.Detect.Os.a64_auxv_exact",
    "Verif.Detect.Os.a64_reg_exact",
    "Verif.Detect.Os.a64_plain_exact",
    "Verif.Detect.Os.other_exact",
    "Verif.Detect.Os.a64_sound",
    "Verif.Detect.Os.ppc_sound",
    "Verif.Detect.Os.riscv_sound",
    "Verif.Detect.Os.x86_end_to_end",
    "Verif.Detect.Os.a64_end_to_end",
    "Verif.Detect.Os.ppc_end_to_end",
    "Verif.Detect.Os.riscv_end_to_end",
    "Verif.Detect.Os.exynos_needs_check",
    "Verif.Detect.Os.elfAuxInfo_needs_promise",
    "Verif.Detect.Os.demo_vmovdqa",
    "Verif.Detect.CStr.is_c_str_iff",
    "Verif.Detect.CStr.c_macro"
   ],
   "note": "The meaning of the answers (Spec/Os.lean) is the vendors' documentation, trusted; the foreign functions themselves are not modelled."
  },
  {
   "property": "C54",
   "status": "proved",
   "theorems": [
    "Verif.Cfg.rejected_iff",
    "Verif.Cfg.no_substitute",
    "Verif.Cfg.x86_detection",
    "Verif.Cfg.checker_detection",
    "Verif.Cfg.wide_compiled_iff",
    "Verif.Cfg.fallback_used",
    "Verif.Cfg.core_used",
    "Verif.Cfg.riscv_used",
    "Verif.Cfg.avr_used",
    "Verif.Cfg.overrides_iff",
    "Verif.Cfg.fence_iff",
    "Verif.Cfg.interrupt_used",
    "Verif.Cfg.interrupt_amo",
    "Verif.Cfg.fast64_iff",
    "Verif.Cfg.riscv_amo_iff",
    "Verif.Cfg.macro_one",
    "Verif.Cfg.cas_one",
    "Verif.Cfg.amo_one",
    "Verif.Cfg.one_definition",
    "Verif.Cfg.old_checker_unresolved",
    "Verif.Cfg.offered_selected",
    "Verif.Cfg.selected_offered",
    "Verif.Cfg.fallback_hides",
    "Verif.Cfg.cas_provided",
    "Verif.Cfg.rmw_provided",
    "Verif.Cfg.require_cas",
    "Verif.Cfg.offers_cas_iff",
    "Verif.Cfg.native_core",
    "Verif.Cfg.native_core64",
    "Verif.Cfg.interrupt_only",
    "Verif.Cfg.lock_only",
    "Verif.Cfg.lock_defined",
    "Verif.Cfg.lock_interrupt",
    "Verif.Cfg.arch_atomic",
    "Verif.Cfg.overrides_core",
    "Verif.Cfg.fence_exists",
    "Verif.Cfg.no_internal",
    "Verif.Cfg.fallback_adds",
    "Verif.Cfg.cs_adds",
    "Verif.Cfg.cs_cas",
    "Verif.Cfg.cs_rmw",
    "Verif.Cfg.other_features",
    "Verif.Cfg.finding1",
    "Verif.Cfg.finding2"
   ],
   "note": "Conditions transcribed mechanically from the #[cfg] text (tools/cfg_emit.py). The facts about targets in Spec/Cfg.lean are trusted; two exceptions in the code, findings 1 and 2, are characterised exactly."
  },
  {
   "property": "C55",
   "status": "proved",
   "theorems": [
    "Verif.Build.Script.feature_enabled",
    "Verif.Build.Script.feature_unreported",
    "Verif.Build.Script.feature_complete",
    "Verif.Build.Script.feature_enabled_command_line",
    "Verif.Build.Script.panics_iff",
    "Verif.Build.Script.no_panic",
    "Verif.Build.Script.declared",
    "Verif.Build.Script.language_exact",
    "Verif.Build.Script.newer",
    "Verif.Build.Script.asm_exact",
    "Verif.Build.Script.unstable_allowed",
    "Verif.Build.Script.convert_spec",
    "Verif.Build.Script.parts_exist",
    "Verif.Build.Script.parts_inj",
    "Verif.Build.Script.old_atomics",
    "Verif.Build.Script.cpu_exact",
    "Verif.Build.Script.rerun_exact",
    "Verif.Build.Script.reported_exact",
    "Verif.Build.Script.cmpxchg16b_stable"
   ],
   "note": "main of build.rs as a function from the environment to the printed lines (cargo:warning and check-cfg lines aside). Soundness and completeness of the reported target features against rustc's treatment of -C target-feature: an arbitrary table of implications that agrees with two short lists (Spec/Script). Completeness excludes, as hypotheses, features enabled by default features or implications the script does not know, and RISC-V before LLVM 19."
  },
  {
   "property": "C56",
   "status": "proved",
   "theorems": [
    "Verif.WM.native_sc_linearizable",
    "Verif.WM.fallback_sc_linearizable",
    "Verif.WM.u128_narrow_sc_linearizable",
    "Verif.WM.u128_wide_sc_linearizable",
    "Verif.WM.u64_wide_sc_linearizable",
    "Verif.WM.WmDemo.sbMixed_runs",
    "Verif.WM.WmDemo.sbMixed_seqCst",
    "Verif.WM.WmDemo.stale_not_linearizable"
   ],
   "note": "On the promise-free view machine. The lock configurations need fewer calls than the version-counter bound of C07."
  },
  {
   "property": "C57",
   "status": "proved",
   "theorems": [
    "Verif.WM.Derived.wrap_refines",
    "Verif.WM.Derived.lock_refines",
    "Verif.Int.int_weak_memory",
    "Verif.Int.int_weak_memory_lock",
    "Verif.Ptr.ptr_weak_memory",
    "Verif.Float.float_weak_memory",
    "Verif.Float.float_weak_memory_lock",
    "Verif.Bool.bool_weak_memory",
    "Verif.WM.DerivedDemo.over_lock"
   ],
   "note": "On the promise-free view machine. First reads of loops may be stale; closures are functions of the arguments they have been given."
  },
  {
   "property": "C58",
   "status": "proved",
   "theorems": [
    "Verif.WM.Derived.promises",
    "Verif.Int.int_promises",
    "Verif.Int.int_promises_lock",
    "Verif.Ptr.ptr_promises",
    "Verif.Float.float_promises",
    "Verif.Float.float_promises_lock",
    "Verif.Bool.bool_promises",
    "Verif.WM.DerivedDemo.sc_over"
   ],
   "note": "On the promise-free view machine."
  },
  {
   "property": "C59",
   "status": "proved",
   "theorems": [
    "Verif.Intr.intr_weak_memory",
    "Verif.Intr.intr_weak_memory_lock",
    "Verif.Intr.intr_promises",
    "Verif.Intr.intr_promises_lock",
    "Verif.Intr.intr_lock_free",
    "Verif.Intr.Demo.over_lock"
   ],
   "note": "On the promise-free view machine; intrinsics and cmpxchg16b are single accesses."
  },
  {
   "property": "C60",
   "status": "proved",
   "theorems": [
    "Verif.Wide.arm_api_linearizable",
    "Verif.Wide.ppc_api_linearizable",
    "Verif.Wide.s390x_api_linearizable",
    "Verif.Wide.rv64_api_linearizable",
    "Verif.Wide.rv32_api_linearizable",
    "Verif.Wide.kuser_api_linearizable",
    "Verif.Wide.x86_api_linearizable",
    "Verif.Wide.x86_api_native",
    "Verif.Wide.arm_api_solo",
    "Verif.Wide.ppc_api_solo",
    "Verif.Wide.s390x_api_solo",
    "Verif.Wide.rv64_api_solo",
    "Verif.Wide.rv32_api_solo",
    "Verif.Wide.kuser_api_solo",
    "Verif.Wide.api_valid",
    "Verif.Wide.api_orderings",
    "Verif.Compose.int_over_lock",
    "Verif.Compose.float_over_lock",
    "Verif.Compose.int_over_irq",
    "Verif.Compose.int_over_cs",
    "Verif.Compose.over_int",
    "Verif.Compose.f128_on_arm",
    "Verif.Compose.f64_on_kuser",
    "Verif.Compose.x86_api_over_lock",
    "Verif.Compose.ppc_api_over_lock",
    "Verif.Compose.rv64_api_over_lock",
    "Verif.Compose.rv32_api_over_lock",
    "Verif.Compose.kuser_api_over_lock",
    "Verif.Compose.x86Sel_total",
    "Verif.Compose.ppcSel_total",
    "Verif.Compose.rv64Sel_total",
    "Verif.Compose.rv32Sel_total",
    "Verif.Compose.kuserSel_total"
   ],
   "note": "Sequentially consistent interleaving except on x86_64 (store buffers); weak memory is C57-C59. The lock needs the version-counter bound of C07; interrupts: operations that check orderings (single-core Arm before v6 does not, C31)."
  },
  {
   "property": "C61",
   "status": "proved",
   "theorems": [
    "Verif.Small.small_int",
    "Verif.Small.small_ptr",
    "Verif.Small.small_over",
    "Verif.Small.single_has",
    "Verif.Small.ptr_single_has",
    "Verif.Small.msp430_block",
    "Verif.Small.msp430_methods",
    "Verif.Small.msp430_step"
   ],
   "note": "On pre-v6 Arm, which does not check them, provided loads and stores are given valid orderings. AMO instructions on sub-words rest on C14."
  },
  {
   "property": "C62",
   "status": "proved",
   "theorems": [
    "Verif.Object.HW.linearizable_iff",
    "Verif.Mixed.textbook"
   ],
   "note": "for every sequential object and history; the kinds of Props/Kinds.lean"
  },
  {
   "property": "C63",
   "status": "proved",
   "theorems": [
    "Verif.Object.locality",
    "Verif.Object.mix_part",
    "Verif.Mixed.mixed",
    "Verif.Mixed.mixed_steps"
   ],
   "note": "locality is an equivalence; any family of kinds"
  },
  {
   "property": "C64",
   "status": "proved",
   "theorems": [
    "Verif.MixedLock.shared_linearizable",
    "Verif.MixedLock.shared_refines_native",
    "Verif.MixedLock.seen_linearizable",
    "Verif.MixedLock.shared_each_width",
    "Verif.MixedLock.over_shared",
    "Verif.MixedLock.shared_program",
    "Verif.Fallback.bothWide_sound",
    "Verif.Fallback.maxOverlap_both"
   ],
   "note": "seq_lock_wide configuration (the only one with two widths); the version-counter bound of C07"
  },
  {
   "property": "C65",
   "status": "proved",
   "theorems": [
    "Verif.WM.Crit.cs_weak_linearizable",
    "Verif.WM.Crit.cs_weak_refines_native",
    "Verif.WM.Crit.cs_weak_native",
    "Verif.WM.Crit.cs_weak_sync",
    "Verif.WM.Crit.cs_weak_total",
    "Verif.WM.Crit.cs_weak_message_passing",
    "Verif.WM.Crit.cs_plain_read_knows_writes",
    "Verif.WM.Crit.cs_plain_write_knows_all",
    "Verif.WM.Crit.cs_weak_exclusive"
   ],
   "note": "assumes of the critical_section crate: mutual exclusion, nesting, and the ordering of a lock"
  },
  {
   "property": "C66",
   "status": "proved",
   "theorems": [
    "Verif.Free.int_lock_free",
    "Verif.Free.ptr_lock_free",
    "Verif.Free.float_lock_free",
    "Verif.Free.bool_lock_free",
    "Verif.Free.x86_lock_free",
    "Verif.Free.arm_lock_free",
    "Verif.Free.ppc_lock_free",
    "Verif.Free.s390x_lock_free",
    "Verif.Free.rv64_lock_free",
    "Verif.Free.rv32_lock_free",
    "Verif.Free.kuser_lock_free",
    "Verif.Free.riscv_lock_free",
    "Verif.Free.armLinux_lock_free",
    "Verif.Free.sub_word_lock_free",
    "Verif.Free.Demo.lock_free_not_wait_free"
   ],
   "note": "single instructions and the kernel helper take effect in one step; spurious failures (weak compare-exchange, store-conditional) at most finitely often; powerpc64, riscv64 and riscv32 where the processor has the instructions, pre-v6 Arm where the kernel has the helper (otherwise those use the lock)"
  },
  {
   "property": "C67",
   "status": "proved",
   "theorems": [
    "Verif.Fallback.returns_or_overtaken",
    "Verif.Fallback.returns_if_calls_stop",
    "Verif.Fallback.infinitely_many_return",
    "Verif.Fallback.stopped_holder_blocks",
    "Verif.Fallback.Starve.starved"
   ],
   "note": "on interleaving memory; back-off (C27) only delays"
  },
  {
   "property": "C68",
   "status": "proved",
   "theorems": [
    "Verif.Excl.take_after_put",
    "Verif.Excl.call_after_put",
    "Verif.Fallback.fallback_exclusive",
    "Verif.Fallback.fallback_exclusive_valid",
    "Verif.Fallback.unguarded_write_tears",
    "Verif.Fallback.ExclDemo.runs",
    "Verif.Lf.int_exclusive",
    "Verif.Lf.ptr_exclusive",
    "Verif.Lf.float_exclusive",
    "Verif.Lf.bool_exclusive",
    "Verif.Lf.x86_exclusive",
    "Verif.Lf.arm_exclusive",
    "Verif.Lf.ppc_exclusive",
    "Verif.Lf.s390x_exclusive",
    "Verif.Lf.rv64_exclusive",
    "Verif.Lf.rv32_exclusive",
    "Verif.Lf.kuser_exclusive",
    "Verif.Lf.armLinux_exclusive",
    "Verif.Lf.riscv_exclusive",
    "Verif.Lf.bool_runs",
    "Verif.Cs.cs_exclusive_access",
    "Verif.Cs.cs_owner_undisturbed",
    "Verif.Cs.excl_runs",
    "Verif.Irq.irq_exclusive_access",
    "Verif.Irq.irq_owner_undisturbed",
    "Verif.Irq.ownerRun_outcome"
   ],
   "note": "All back ends: lock, lock-free, interrupt-disabling, critical sections. On interleaving memory; the synchronisation by which an object is handed to its owner is Rust's (a mutable borrow). The lock needs the version-counter bound of C07."
  },
  {
   "property": "C69",
   "status": "proved",
   "theorems": [
    "Verif.Update.no_lost_update",
    "Verif.Update.result_shown",
    "Verif.Update.update_explained",
    "Verif.Update.fallback_update",
    "Verif.Update.int_update",
    "Verif.Update.ptr_update",
    "Verif.Update.float_update",
    "Verif.Update.bool_update",
    "Verif.Update.closure_holds_no_lock",
    "Verif.Update.Demo.low_runs",
    "Verif.Update.Demo.high_runs",
    "Verif.Update.api_update",
    "Verif.Update.arm_update",
    "Verif.Update.ppc_update",
    "Verif.Update.s390x_update",
    "Verif.Update.rv64_update",
    "Verif.Update.rv32_update",
    "Verif.Update.kuser_update",
    "Verif.Update.x86_update",
    "Verif.Update.cs_update",
    "Verif.Update.irq_update",
    "Verif.Update.cs_closure_outside",
    "Verif.Update.CsDemo.nested"
   ],
   "note": "On interleaving memory (x86_64: with store buffers, if the program's stores are SeqCst). For the lock, the version-counter bound of C07."
  },
  {
   "property": "C70",
   "status": "proved",
   "theorems": [
    "Verif.Rv.packed_independent",
    "Verif.Rv.flags_independent",
    "Verif.Rv.flag_accesses",
    "Verif.Rv.Demo.runs",
    "Verif.Rv.Demo.run"
   ],
   "note": "an AMO on a word and a byte/halfword load or store are each one indivisible step (as in C14)"
  },
  {
   "property": "C71",
   "status": "proved",
   "theorems": [
    "Verif.Irq.op_bounded",
    "Verif.Irq.op_never_blocks",
    "Verif.Irq.op_returns",
    "Verif.Irq.latency_bounded",
    "Verif.Irq.bound_reached",
    "Verif.Irq.masked_stretch",
    "Verif.Cs.cs_op_bounded",
    "Verif.Cs.cs_waits_only_at_entry"
   ],
   "note": "steps are those of the model (instructions of disable/restore, one per access to a piece of the value, one each for entering, computing, leaving, returning); computation between accesses is one step"
  },
  {
   "property": "C72",
   "status": "proved",
   "theorems": [
    "Verif.Cs.cs_no_deadlock",
    "Verif.Cs.sections_end",
    "Verif.Cs.cs_returns_or_overtaken",
    "Verif.Cs.cs_returns_once_entered",
    "Verif.Cs.cs_returns_forever",
    "Verif.Cs.Starve.endless",
    "Verif.Cs.Starve.fair",
    "Verif.Cs.Starve.ends",
    "Verif.Cs.Starve.starves"
   ],
   "note": "the critical section is the one the critical_section crate specifies (nestable, one context at a time); its implementation is the user's"
  },
  {
   "property": "C73",
   "status": "proved",
   "theorems": [
    "Verif.Lsfe.decode_encode",
    "Verif.Lsfe.lsfe_encodings",
    "Verif.Lsfe.lsfe_linearizable",
    "Verif.Lsfe.lsfe_finishes",
    "Verif.Lsfe.lsfe_is_float_prog",
    "Verif.Lsfe.lsfe_acquire",
    "Verif.Lsfe.lsfe_release",
    "Verif.Lsfe.lsfe_seqCst",
    "Verif.Lsfe.lsfe_arm_seqCst"
   ],
   "note": "Float arithmetic is a parameter (a relation). That LDFADD, LDFMAXNM and LDFMINNM compute possible results of Rust's +, max and min is trusted. Values on interleaving memory, orderings by the Arm model's barrier-ordered-before relation."
  },
  {
   "property": "C74",
   "status": "proved",
   "theorems": [
    "Verif.X86.Bits.bits_exact",
    "Verif.X86.Bits.bits_are_int_prog",
    "Verif.X86.Bits.bits_linearizable",
    "Verif.X86.Bits.bits_finishes"
   ],
   "note": "The meaning of lock not/neg/bts/btr/btc and setb is Intel's (trusted); flags other than CF, faults and segments are not modelled. Types without an asm block use the generic code of C20 and C33."
  }
 ]
}