'Verif.Fallback.fallback_linearizable' depends on axioms: [propext, Classical.choice, Quot.sound]
'Verif.Fallback.fallback_linearizable_of_calls' depends on axioms: [propext, Classical.choice, Quot.sound]
'Verif.Fallback.u128Narrow_linearizable' depends on axioms: [propext, Classical.choice, Quot.sound]
'Verif.Fallback.u128Wide_linearizable' depends on axioms: [propext, Classical.choice, Quot.sound]
'Verif.Fallback.u64Wide_linearizable' depends on axioms: [propext, Classical.choice, Quot.sound]
'Verif.Fallback.load_not_torn' depends on axioms: [propext, Classical.choice, Quot.sound]
'Verif.Fallback.store_only_by_successful_writer' depends on axioms: [propext, Quot.sound]
'Verif.Fallback.version_only_by_successful_writer' depends on axioms: [propext, Quot.sound]
'Verif.Fallback.free_lock_encodes_version' depends on axioms: [propext, Classical.choice, Quot.sound]
'Verif.Fallback.mutual_exclusion' depends on axioms: [propext, Classical.choice, Quot.sound]
'Verif.Fallback.words_change_only_in_section' depends on axioms: [propext]
'Verif.Fallback.plain_read_no_race' depends on axioms: [propext, Classical.choice, Quot.sound]
'Verif.Fallback.plain_read_current' depends on axioms: [propext, Classical.choice, Quot.sound]
'Verif.Fallback.no_deadlock' depends on axioms: [propext, Classical.choice, Quot.sound]
'Verif.Fallback.completes_alone' depends on axioms: [propext, Classical.choice, Quot.sound]
'Verif.Fallback.validation_exact_narrow' depends on axioms: [propext, Classical.choice, Quot.sound]
'Verif.Fallback.validation_exact_wide' depends on axioms: [propext, Classical.choice, Quot.sound]
'Verif.Fallback.wrap_bound_exact' depends on axioms: [propext, Classical.choice, Quot.sound]
'Verif.Fallback.other_objects_untouched' depends on axioms: [propext, Quot.sound]
'Verif.Fallback.per_object_linearizable' depends on axioms: [propext, Classical.choice, Quot.sound]
'Verif.WM.fallback_message_passing' depends on axioms: [propext, Classical.choice, Quot.sound]
'Verif.WM.plain_read_knows_all_writes' depends on axioms: [propext, Classical.choice, Quot.sound]
'Verif.WM.write_knows_all_plain_reads' depends on axioms: [propext, Classical.choice, Quot.sound]
'Verif.WM.plain_read_words_only' depends on axioms: [propext]
'Verif.WM.words_not_swapped' depends on axioms: [propext]
'Verif.WM.fallback_refines_native' depends on axioms: [propext, Classical.choice, Quot.sound]
'Verif.WM.fallback_untorn' depends on axioms: [propext, Classical.choice, Quot.sound]
'Verif.WM.fallback_coherent' depends on axioms: [propext, Classical.choice, Quot.sound]
'Verif.WM.u128_narrow_refines_native' depends on axioms: [propext, Classical.choice, Quot.sound]
'Verif.WM.u128_wide_refines_native' depends on axioms: [propext, Classical.choice, Quot.sound]
'Verif.WM.u64_wide_refines_native' depends on axioms: [propext, Classical.choice, Quot.sound]
'Verif.WM.fallback_sc_recency' depends on axioms: [propext, Classical.choice, Quot.sound]
'Verif.WM.fallback_store_buffering' depends on axioms: [propext, Classical.choice, Quot.sound]
'Verif.WM.fallback_sc_fences' depends on axioms: [propext, Classical.choice, Quot.sound]
'Verif.WM.fallback_store_buffering_mixed' depends on axioms: [propext, Classical.choice, Quot.sound]
'Verif.Int.int_linearizable' depends on axioms: [propext, Classical.choice, Quot.sound]
'Verif.Int.update_writes_at_most_once' depends on axioms: [propext]
'Verif.Bool.bool_linearizable' depends on axioms: [propext, Quot.sound]
'Verif.Int.loop_finishes' depends on axioms: [propext]
'Verif.Int.failure_means_interference' depends on axioms: [propext]
'Verif.Int.int_ordering_kept' depends on axioms: [propext, Quot.sound]
'Verif.Rv.sub_word_exact' depends on axioms: [propext, Classical.choice, Quot.sound]
'Verif.Rv.sub_word_linearizable' depends on axioms: [propext, Classical.choice, Quot.sound]
'Verif.load_panics_iff' depends on axioms: [propext]
'Verif.store_panics_iff' depends on axioms: [propext]
'Verif.cas_panics_iff' depends on axioms: [propext]
'Verif.Fallback.rejected_before_any_access' depends on axioms: [propext]
'Verif.Fallback.panics_only_if_rejected' depends on axioms: [propext, Quot.sound]
'Verif.Irq.armv4t_load_release_does_not_panic' depends on axioms: [propext, Classical.choice, Quot.sound]
'Verif.upgrade_is_lub' depends on axioms: [propext]
'Verif.MemOrd.eq_of_gives' depends on axioms: [propext]
'Verif.Bool.bool_byte_valid' depends on axioms: [propext, Quot.sound]
'Verif.Bool.bool_single_access' depends on axioms: [propext, Quot.sound]
'Verif.Bool.bool_ordering_kept' depends on axioms: [propext, Quot.sound]
'Verif.Bool.bool_update_ordering_kept' depends on axioms: [propext, Quot.sound]
'Verif.Ptr.ptr_linearizable' depends on axioms: [propext, Classical.choice, Quot.sound]
'Verif.Ptr.ptr_add_sub_restores' depends on axioms: [propext]
'Verif.Ptr.ptr_add_exact' depends on axioms: [propext]
'Verif.Ptr.above_unique' does not depend on any axioms
'Verif.Ptr.below_unique' depends on axioms: [propext]
'Verif.Ptr.ptr_ordering_kept' depends on axioms: [propext, Quot.sound]
'Verif.Int.bit_post_unique' depends on axioms: [propext, Quot.sound]
'Verif.Float.float_linearizable' depends on axioms: [propext, Classical.choice, Quot.sound]
'Verif.Float.neg_neg_restores' depends on axioms: [propext, Quot.sound]
'Verif.Float.abs_abs_same' depends on axioms: [propext, Quot.sound]
'Verif.Float.float_loop_finishes' depends on axioms: [propext, Quot.sound]
'Verif.Float.float_ordering_kept' depends on axioms: [propext, Quot.sound]
'Verif.Detect.one_answer' depends on axioms: [propext, Classical.choice, Quot.sound]
'Verif.Detect.one_answer_of_stable' depends on axioms: [propext, Classical.choice, Quot.sound]
'Verif.Detect.each_explained' depends on axioms: [propext, Classical.choice, Quot.sound]
'Verif.Detect.detection_waitFree' depends on axioms: [propext, Classical.choice, Quot.sound]
'Verif.Detect.X86.demo_race' depends on axioms: [propext, Classical.choice, Quot.sound]
'Verif.Detect.X86.store_would_mix' depends on axioms: [propext, Quot.sound]
'Verif.Detect.X86.x86_no_mixing' depends on axioms: [propext, Classical.choice, Quot.sound]
'Verif.Detect.X86.x86_intrinsics_consistent' depends on axioms: [propext, Classical.choice, Quot.sound]
'Verif.Detect.Powerpc64.powerpc64_consistent' depends on axioms: [propext, Classical.choice, Quot.sound]
'Verif.Detect.Powerpc64.powerpc64_aix_consistent' depends on axioms: [propext, Classical.choice, Quot.sound]
'Verif.Detect.Riscv.riscv_consistent' depends on axioms: [propext, Classical.choice, Quot.sound]
'Verif.Detect.ArmLinux.armLinux_consistent' depends on axioms: [propext, Classical.choice, Quot.sound]
'Verif.Detect.A64.a64_lockFree' depends on axioms: [propext, Classical.choice, Quot.sound]
'Verif.Fallback.Table.lock_in_range' depends on axioms: [propext, Quot.sound]
'Verif.Fallback.Table.lock_same' depends on axioms: [propext, Quot.sound]
'Verif.Fallback.Table.locks_spread' depends on axioms: [propext, Classical.choice, Quot.sound]
'Verif.Fallback.Table.backoff_bounded' depends on axioms: [propext, Quot.sound]
'Verif.X86.rmw3_value' depends on axioms: [propext, Classical.choice, Quot.sound]
'Verif.X86.rmw2_value' depends on axioms: [propext, Classical.choice, Quot.sound]
'Verif.X86.x86_linearizable' depends on axioms: [propext, Classical.choice, Quot.sound]
'Verif.X86.x86_finishes' depends on axioms: [propext, Classical.choice, Quot.sound]
'Verif.X86.x86_failure_means_interference' depends on axioms: [propext, Quot.sound]
'Verif.X86.halves_are_union' depends on axioms: [propext, Classical.choice, Quot.sound]
'Verif.Pair.whole_eq' depends on axioms: [propext, Classical.choice, Quot.sound]
'Verif.Pair.pair_eq' depends on axioms: [propext, Classical.choice, Quot.sound]
'Verif.Pair.whole_pair' depends on axioms: [propext, Classical.choice, Quot.sound]
'Verif.Pair.pair_whole' depends on axioms: [propext, Classical.choice, Quot.sound]
'Verif.Pair.arm_pair_is_memory_order' depends on axioms: [propext]
'Verif.Pair.zero_extend_eq' depends on axioms: [propext, Classical.choice, Quot.sound]
'Verif.Irq.irq_linearizable' depends on axioms: [propext, Classical.choice, Quot.sound]
'Verif.Irq.irq_exclusive' depends on axioms: [propext, Classical.choice, Quot.sound]
'Verif.Irq.spec_is_cell' depends on axioms: [propext, Classical.choice, Quot.sound]
'Verif.Cs.cs_linearizable' depends on axioms: [propext, Classical.choice, Quot.sound]
'Verif.Cs.cs_exclusive' depends on axioms: [propext, Classical.choice, Quot.sound]
'Verif.Cs.feature_is_cell' depends on axioms: [propext, Classical.choice, Quot.sound]
'Verif.Cs.esp32_feature_is_cell' depends on axioms: [propext, Classical.choice, Quot.sound]
'Verif.Cs.esp32_panics_iff' depends on axioms: [propext, Classical.choice, Quot.sound]
'Verif.Cs.esp32_native_only_internal' depends on axioms: [propext, Classical.choice, Quot.sound]
'Verif.Cs.esp32_object_on_one_side' depends on axioms: [propext, Classical.choice, Quot.sound]
'Verif.Cs.esp32_bytes' depends on axioms: [propext, Classical.choice, Quot.sound]
'Verif.Irq.status_restored' depends on axioms: [propext, Classical.choice, Quot.sound]
'Verif.Irq.uninterrupted' depends on axioms: [propext, Classical.choice, Quot.sound]
'Verif.Cs.cs_restored' depends on axioms: [propext, Classical.choice, Quot.sound]
'Verif.Int.bin_post_unique' depends on axioms: [propext, Quot.sound]
'Verif.Int.binF_post_unique' depends on axioms: [propext, Quot.sound]
'Verif.Int.un_post_unique' depends on axioms: [propext, Quot.sound]
'Verif.Int.sub_eq_add_neg' depends on axioms: [propext, Quot.sound]
'Verif.Int.not_eq_xor' depends on axioms: [propext, Classical.choice, Quot.sound]
'Verif.Int.plain_form_same' depends on axioms: [propext, Quot.sound]
'Verif.Build.version_no_panic' depends on axioms: [propext, Classical.choice, Quot.sound]
'Verif.Build.version_reads_output' depends on axioms: [propext, Classical.choice, Quot.sound]
'Verif.Build.number_read_exact' depends on axioms: [propext, Quot.sound]
'Verif.Build.probe_iff' depends on axioms: [propext, Classical.choice, Quot.sound]
'Verif.Build.rustflags_no_panic' depends on axioms: [propext, Classical.choice, Quot.sound]
'Verif.Build.rustflags_reads_command_line' depends on axioms: [propext, Classical.choice, Quot.sound]
'Verif.Build.features_of_list' depends on axioms: [propext, Quot.sound]
'Verif.Build.allowed_iff' depends on axioms: [propext, Classical.choice, Quot.sound]
'Verif.Build.strip_prefix_exact' depends on axioms: [propext, Classical.choice, Quot.sound]
'Verif.Build.strip_suffix_exact' depends on axioms: [propext, Classical.choice, Quot.sound]
'Verif.Detect.X86.x86_only_reported' depends on axioms: [propext, Classical.choice, Quot.sound]
'Verif.Detect.X86.x86_fallback_only' depends on axioms: [propext, Classical.choice, Quot.sound]
'Verif.Detect.X86.decode_flags' depends on axioms: [propext, Quot.sound]
'Verif.Detect.A64.a64_only_reported' depends on axioms: [propext, Classical.choice, Quot.sound]
'Verif.Detect.A64.decodeAuxv_flags' depends on axioms: [propext, Quot.sound]
'Verif.Detect.A64.decodeReg_flags' depends on axioms: [propext, Classical.choice, Quot.sound]
'Verif.Detect.A64.decodePlain_flags' depends on axioms: [propext, Quot.sound]
'Verif.Arm.arm_rmw3_value' depends on axioms: [propext, Classical.choice, Quot.sound]
'Verif.Arm.arm_rmw3_value_casp' depends on axioms: [propext, Classical.choice, Quot.sound]
'Verif.Arm.arm_rmw2_value' depends on axioms: [propext, Classical.choice, Quot.sound]
'Verif.Arm.arm_halves_are_union' depends on axioms: [propext, Classical.choice, Quot.sound]
'Verif.Arm.arm_linearizable' depends on axioms: [propext, Classical.choice, Quot.sound]
'Verif.Arm.arm_finishes' depends on axioms: [propext, Classical.choice, Quot.sound]
'Verif.Arm.select_good' depends on axioms: [propext, Quot.sound]
'Verif.Arm.arm_acquire' depends on axioms: [propext, Classical.choice, Quot.sound]
'Verif.Arm.arm_release' depends on axioms: [propext, Quot.sound]
'Verif.Arm.arm_seqCst' depends on axioms: [propext, Classical.choice, Quot.sound]
'Verif.Arm.arm_msvc_fence' depends on axioms: [propext, Quot.sound]
'Verif.Arm.arm_events_exist' depends on axioms: [propext, Classical.choice, Quot.sound]
'Verif.Ppc.ppc_rmw3_value' depends on axioms: [propext, Classical.choice, Quot.sound]
'Verif.Ppc.ppc_neg_value' depends on axioms: [propext, Classical.choice, Quot.sound]
'Verif.Ppc.ppc_halves_are_union' depends on axioms: [propext, Classical.choice, Quot.sound]
'Verif.Ppc.ppc_linearizable' depends on axioms: [propext, Classical.choice, Quot.sound]
'Verif.Ppc.ppc_finishes' depends on axioms: [propext, Classical.choice, Quot.sound]
'Verif.Ppc.ppc_fallback' depends on axioms: [propext, Quot.sound]
'Verif.Ppc.ppc_no_fallback' depends on axioms: [propext, Quot.sound]
'Verif.Ppc.ppc_acquire' depends on axioms: [propext, Quot.sound]
'Verif.Ppc.ppc_release' depends on axioms: [propext, Quot.sound]
'Verif.Ppc.ppc_seqCst' depends on axioms: [propext, Quot.sound]
'Verif.Ppc.ppc_events_exist' depends on axioms: [propext, Classical.choice, Quot.sound]
'Verif.S390x.s390x_rmw3_value' depends on axioms: [propext, Classical.choice, Quot.sound]
'Verif.S390x.s390x_rmw2_value' depends on axioms: [propext, Classical.choice, Quot.sound]
'Verif.S390x.s390x_extract_cc' depends on axioms: [propext, Classical.choice, Quot.sound]
'Verif.S390x.s390x_halves_are_union' depends on axioms: [propext, Classical.choice, Quot.sound]
'Verif.S390x.s390x_linearizable' depends on axioms: [propext, Classical.choice, Quot.sound]
'Verif.S390x.s390x_finishes' depends on axioms: [propext, Classical.choice, Quot.sound]
'Verif.S390x.s390x_acquire' depends on axioms: [propext, Quot.sound]
'Verif.S390x.s390x_release' depends on axioms: [propext, Quot.sound]
'Verif.S390x.s390x_seqCst' depends on axioms: [propext, Classical.choice, Quot.sound]
'Verif.S390x.s390x_events_exist' depends on axioms: [propext, Classical.choice, Quot.sound]
'Verif.Rv64.rv64_next_value' depends on axioms: [propext, Classical.choice, Quot.sound]
'Verif.Rv64.rv64_encodings' depends on axioms: [propext, Quot.sound]
'Verif.Rv64.rv64_halves_are_union' depends on axioms: [propext, Classical.choice, Quot.sound]
'Verif.Rv64.rv64_linearizable' depends on axioms: [propext, Classical.choice, Quot.sound]
'Verif.Rv64.rv64_finishes' depends on axioms: [propext, Classical.choice, Quot.sound]
'Verif.Rv64.rv64_fallback' depends on axioms: [propext, Quot.sound]
'Verif.Rv64.lockOp_sem' depends on axioms: [propext]
'Verif.Rv64.rv64_no_fallback' depends on axioms: [propext, Quot.sound]
'Verif.Rv64.rv64_acquire' depends on axioms: [propext, Classical.choice, Quot.sound]
'Verif.Rv64.rv64_release' depends on axioms: [propext, Classical.choice, Quot.sound]
'Verif.Rv64.rv64_seqCst' depends on axioms: [propext, Classical.choice, Quot.sound]
'Verif.Rv64.rv64_seqCst_after_everything' depends on axioms: [propext, Classical.choice, Quot.sound]
'Verif.Rv64.rv64_events_exist' depends on axioms: [propext, Classical.choice, Quot.sound]
'Verif.Rv32.rv32_next_value' depends on axioms: [propext, Classical.choice, Quot.sound]
'Verif.Rv32.rv32_encodings' depends on axioms: [propext, Quot.sound]
'Verif.Rv32.rv32_halves_are_union' depends on axioms: [propext, Classical.choice, Quot.sound]
'Verif.Rv32.rv32_linearizable' depends on axioms: [propext, Classical.choice, Quot.sound]
'Verif.Rv32.rv32_finishes' depends on axioms: [propext, Classical.choice, Quot.sound]
'Verif.Rv32.rv32_fallback' depends on axioms: [propext, Quot.sound]
'Verif.Rv32.lockOp_sem' depends on axioms: [propext]
'Verif.Rv32.rv32_no_fallback' depends on axioms: [propext, Quot.sound]
'Verif.Rv32.rv32_acquire' depends on axioms: [propext, Classical.choice, Quot.sound]
'Verif.Rv32.rv32_release' depends on axioms: [propext, Classical.choice, Quot.sound]
'Verif.Rv32.rv32_seqCst' depends on axioms: [propext, Classical.choice, Quot.sound]
'Verif.Rv32.rv32_seqCst_after_everything' depends on axioms: [propext, Classical.choice, Quot.sound]
'Verif.Rv32.rv32_events_exist' depends on axioms: [propext, Classical.choice, Quot.sound]
'Verif.Kuser.kuser_next_value' depends on axioms: [propext, Classical.choice, Quot.sound]
'Verif.Kuser.kuser_halves_are_union' depends on axioms: [propext, Classical.choice, Quot.sound]
'Verif.Kuser.kuser_linearizable' depends on axioms: [propext, Classical.choice, Quot.sound]
'Verif.Kuser.kuser_finishes' depends on axioms: [propext, Classical.choice, Quot.sound]
'Verif.Kuser.kuser_fallback' depends on axioms: [propext]
'Verif.Kuser.lockOp_sem' depends on axioms: [propext]
'Verif.Kuser.kuser_events_exist' depends on axioms: [propext, Classical.choice, Quot.sound]
'Verif.Kuser.kuser_acqRel' depends on axioms: [propext, Classical.choice, Quot.sound]
'Verif.Kuser.kuser_seqCst' depends on axioms: [propext, Quot.sound]
'Verif.ArmLinux.armLinux_linearizable' depends on axioms: [propext, Quot.sound]
'Verif.ArmLinux.armLinux_acquire' depends on axioms: [propext, Classical.choice, Quot.sound]
'Verif.ArmLinux.armLinux_release' depends on axioms: [propext, Quot.sound]
'Verif.ArmLinux.armLinux_seqCst' depends on axioms: [propext, Quot.sound]
'Verif.ArmLinux.armLinux_mixed' depends on axioms: [propext, Quot.sound]
'Verif.ArmLinux.inner_failure_not_acquire' depends on axioms: [propext]
'Verif.Riscv.riscv_linearizable' depends on axioms: [propext, Classical.choice, Quot.sound]
'Verif.Riscv.riscv_acquire' depends on axioms: [propext, Quot.sound]
'Verif.Riscv.riscv_release' depends on axioms: [propext, Quot.sound]
'Verif.Riscv.riscv_seqCst' depends on axioms: [propext, Quot.sound]
'Verif.Riscv.riscv_subWord_order' depends on axioms: [propext, Quot.sound]
'Verif.Fence.fence_panics' depends on axioms: [propext]
'Verif.Fence.fence_works' depends on axioms: [propext, Quot.sound]
'Verif.Fence.msp430_compiler_fence' depends on axioms: [propext, Quot.sound]
'Verif.Fence.x86_needs_locked' depends on axioms: [propext, Quot.sound]
'Verif.ArmLinux.armLinux_fence' depends on axioms: [propext, Quot.sound]
'Verif.X86.Fn.x86_native_tso' depends on axioms: [propext, Classical.choice, Quot.sound]
'Verif.X86.Fn.x86_seqCst_linearizable' depends on axioms: [propext, Classical.choice, Quot.sound]
'Verif.X86.Fn.x86_fenced_sc' depends on axioms: [propext, Classical.choice, Quot.sound]
'Verif.X86.Fn.x86_fallback' depends on axioms: [propext, Quot.sound]
'Verif.X86.Fn.sb_runs' depends on axioms: [propext, Classical.choice, Quot.sound]
'Verif.X86.Fn.sb_not_sc' depends on axioms: [propext, Classical.choice, Quot.sound]
'Verif.X86.Fn.x86_ra' depends on axioms: [propext, Classical.choice, Quot.sound]
'Verif.X86.Fn.ra_publication' depends on axioms: [propext]
'Verif.X86.Fn.mp_not_ra' depends on axioms: [propext, Quot.sound]
'Verif.X86.Fn.mp_never' depends on axioms: [propext, Classical.choice, Quot.sound]
'Verif.X86.Fn.sb_ra' depends on axioms: [propext, Classical.choice, Quot.sound]
'Verif.Detect.Os.cpuid_block' depends on axioms: [propext, Classical.choice, Quot.sound]
'Verif.Detect.Os.x86_exact' depends on axioms: [propext, Quot.sound]
'Verif.Detect.Os.x86_sound' depends on axioms: [propext, Quot.sound]
'Verif.Detect.Os.a64_auxv_exact' depends on axioms: [propext, Classical.choice, Quot.sound]
'Verif.Detect.Os.a64_reg_exact' depends on axioms: [propext, Classical.choice, Quot.sound]
'Verif.Detect.Os.a64_plain_exact' depends on axioms: [propext, Classical.choice, Quot.sound]
'Verif.Detect.Os.other_exact' depends on axioms: [propext, Classical.choice, Quot.sound]
'Verif.Detect.Os.a64_sound' depends on axioms: [propext, Classical.choice, Quot.sound]
'Verif.Detect.Os.ppc_sound' depends on axioms: [propext, Quot.sound]
'Verif.Detect.Os.riscv_sound' depends on axioms: [propext, Quot.sound]
'Verif.Detect.Os.x86_end_to_end' depends on axioms: [propext, Classical.choice, Quot.sound]
'Verif.Detect.Os.a64_end_to_end' depends on axioms: [propext, Classical.choice, Quot.sound]
'Verif.Detect.Os.ppc_end_to_end' depends on axioms: [propext, Classical.choice, Quot.sound]
'Verif.Detect.Os.riscv_end_to_end' depends on axioms: [propext, Classical.choice, Quot.sound]
'Verif.Detect.Os.exynos_needs_check' depends on axioms: [propext, Classical.choice, Quot.sound]
'Verif.Detect.Os.elfAuxInfo_needs_promise' depends on axioms: [propext, Quot.sound]
'Verif.Detect.Os.demo_vmovdqa' depends on axioms: [propext, Classical.choice, Quot.sound]
'Verif.Detect.CStr.is_c_str_iff' depends on axioms: [propext, Quot.sound]
'Verif.Detect.CStr.c_macro' depends on axioms: [propext, Classical.choice, Quot.sound]
'Verif.Cfg.rejected_iff' depends on axioms: [propext, Classical.choice, Quot.sound]
'Verif.Cfg.no_substitute' depends on axioms: [propext, Classical.choice, Quot.sound]
'Verif.Cfg.x86_detection' depends on axioms: [propext, Classical.choice, Quot.sound]
'Verif.Cfg.checker_detection' depends on axioms: [propext, Classical.choice, Quot.sound]
'Verif.Cfg.wide_compiled_iff' depends on axioms: [propext, Classical.choice, Quot.sound]
'Verif.Cfg.fallback_used' depends on axioms: [propext, Classical.choice, Quot.sound]
'Verif.Cfg.core_used' depends on axioms: [propext, Classical.choice, Quot.sound]
'Verif.Cfg.riscv_used' depends on axioms: [propext, Classical.choice, Quot.sound]
'Verif.Cfg.avr_used' depends on axioms: [propext, Classical.choice, Quot.sound]
'Verif.Cfg.overrides_iff' depends on axioms: [propext, Classical.choice, Quot.sound]
'Verif.Cfg.fence_iff' depends on axioms: [propext, Classical.choice, Quot.sound]
'Verif.Cfg.interrupt_used' depends on axioms: [propext, Classical.choice, Quot.sound]
'Verif.Cfg.interrupt_amo' depends on axioms: [propext, Classical.choice, Quot.sound]
'Verif.Cfg.fast64_iff' depends on axioms: [propext]
'Verif.Cfg.riscv_amo_iff' depends on axioms: [propext, Classical.choice, Quot.sound]
'Verif.Cfg.macro_one' depends on axioms: [propext, Classical.choice, Quot.sound]
'Verif.Cfg.cas_one' depends on axioms: [propext, Classical.choice, Quot.sound]
'Verif.Cfg.amo_one' depends on axioms: [propext, Classical.choice, Quot.sound]
'Verif.Cfg.one_definition' depends on axioms: [propext, Classical.choice, Quot.sound]
'Verif.Cfg.old_checker_unresolved' depends on axioms: [propext, Classical.choice, Quot.sound]
'Verif.Cfg.offered_selected' depends on axioms: [propext, Classical.choice, Quot.sound]
'Verif.Cfg.selected_offered' depends on axioms: [propext, Classical.choice, Quot.sound]
'Verif.Cfg.fallback_hides' depends on axioms: [propext, Classical.choice, Quot.sound]
'Verif.Cfg.cas_provided' depends on axioms: [propext, Classical.choice, Quot.sound]
'Verif.Cfg.rmw_provided' depends on axioms: [propext, Classical.choice, Quot.sound]
'Verif.Cfg.require_cas' depends on axioms: [propext, Classical.choice, Quot.sound]
'Verif.Cfg.offers_cas_iff' depends on axioms: [propext, Classical.choice, Quot.sound]
'Verif.Cfg.native_core' depends on axioms: [propext, Classical.choice, Quot.sound]
'Verif.Cfg.native_core64' depends on axioms: [propext, Classical.choice, Quot.sound]
'Verif.Cfg.interrupt_only' depends on axioms: [propext, Classical.choice, Quot.sound]
'Verif.Cfg.lock_only' depends on axioms: [propext, Classical.choice, Quot.sound]
'Verif.Cfg.lock_defined' depends on axioms: [propext, Classical.choice, Quot.sound]
'Verif.Cfg.lock_interrupt' depends on axioms: [propext, Classical.choice, Quot.sound]
'Verif.Cfg.arch_atomic' depends on axioms: [propext, Classical.choice, Quot.sound]
'Verif.Cfg.overrides_core' depends on axioms: [propext, Classical.choice, Quot.sound]
'Verif.Cfg.fence_exists' depends on axioms: [propext, Classical.choice, Quot.sound]
'Verif.Cfg.no_internal' depends on axioms: [propext, Classical.choice, Quot.sound]
'Verif.Cfg.fallback_adds' depends on axioms: [propext, Classical.choice, Quot.sound]
'Verif.Cfg.cs_adds' depends on axioms: [propext, Classical.choice, Quot.sound]
'Verif.Cfg.cs_cas' depends on axioms: [propext]
'Verif.Cfg.cs_rmw' depends on axioms: [propext, Quot.sound]
'Verif.Cfg.other_features' does not depend on any axioms
'Verif.Cfg.finding1' depends on axioms: [propext]
'Verif.Cfg.finding2' depends on axioms: [propext]
'Verif.Build.Script.feature_enabled' depends on axioms: [propext, Classical.choice, Quot.sound]
'Verif.Build.Script.feature_unreported' depends on axioms: [propext, Classical.choice, Quot.sound]
'Verif.Build.Script.feature_complete' depends on axioms: [propext, Classical.choice, Quot.sound]
'Verif.Build.Script.feature_enabled_command_line' depends on axioms: [propext, Classical.choice, Quot.sound]
'Verif.Build.Script.panics_iff' depends on axioms: [propext, Classical.choice, Quot.sound]
'Verif.Build.Script.no_panic' depends on axioms: [propext, Classical.choice, Quot.sound]
'Verif.Build.Script.declared' depends on axioms: [propext, Classical.choice, Quot.sound]
'Verif.Build.Script.language_exact' depends on axioms: [propext, Classical.choice, Quot.sound]
'Verif.Build.Script.newer' depends on axioms: [propext, Classical.choice, Quot.sound]
'Verif.Build.Script.asm_exact' depends on axioms: [propext, Classical.choice, Quot.sound]
'Verif.Build.Script.unstable_allowed' depends on axioms: [propext, Classical.choice, Quot.sound]
'Verif.Build.Script.convert_spec' depends on axioms: [propext]
'Verif.Build.Script.parts_exist' depends on axioms: [propext, Quot.sound]
'Verif.Build.Script.parts_inj' depends on axioms: [propext]
'Verif.Build.Script.old_atomics' depends on axioms: [propext, Classical.choice, Quot.sound]
'Verif.Build.Script.cpu_exact' depends on axioms: [propext, Classical.choice, Quot.sound]
'Verif.Build.Script.rerun_exact' depends on axioms: [propext, Classical.choice, Quot.sound]
'Verif.Build.Script.reported_exact' depends on axioms: [propext, Classical.choice, Quot.sound]
'Verif.Build.Script.cmpxchg16b_stable' depends on axioms: [propext, Classical.choice, Quot.sound]
'Verif.WM.native_sc_linearizable' depends on axioms: [propext, Classical.choice, Quot.sound]
'Verif.WM.fallback_sc_linearizable' depends on axioms: [propext, Classical.choice, Quot.sound]
'Verif.WM.u128_narrow_sc_linearizable' depends on axioms: [propext, Classical.choice, Quot.sound]
'Verif.WM.u128_wide_sc_linearizable' depends on axioms: [propext, Classical.choice, Quot.sound]
'Verif.WM.u64_wide_sc_linearizable' depends on axioms: [propext, Classical.choice, Quot.sound]
'Verif.WM.WmDemo.sbMixed_runs' depends on axioms: [propext, Classical.choice, Quot.sound]
'Verif.WM.WmDemo.sbMixed_seqCst' depends on axioms: [propext]
'Verif.WM.WmDemo.stale_not_linearizable' depends on axioms: [propext, Classical.choice, Quot.sound]
'Verif.WM.Derived.wrap_refines' depends on axioms: [propext, Classical.choice, Quot.sound]
'Verif.WM.Derived.lock_refines' depends on axioms: [propext, Classical.choice, Quot.sound]
'Verif.Int.int_weak_memory' depends on axioms: [propext, Classical.choice, Quot.sound]
'Verif.Int.int_weak_memory_lock' depends on axioms: [propext, Classical.choice, Quot.sound]
'Verif.Ptr.ptr_weak_memory' depends on axioms: [propext, Classical.choice, Quot.sound]
'Verif.Float.float_weak_memory' depends on axioms: [propext, Classical.choice, Quot.sound]
'Verif.Float.float_weak_memory_lock' depends on axioms: [propext, Classical.choice, Quot.sound]
'Verif.Bool.bool_weak_memory' depends on axioms: [propext, Classical.choice, Quot.sound]
'Verif.WM.DerivedDemo.over_lock' depends on axioms: [propext, Classical.choice, Quot.sound]
'Verif.WM.Derived.promises' depends on axioms: [propext, Classical.choice, Quot.sound]
'Verif.Int.int_promises' depends on axioms: [propext, Classical.choice, Quot.sound]
'Verif.Int.int_promises_lock' depends on axioms: [propext, Classical.choice, Quot.sound]
'Verif.Ptr.ptr_promises' depends on axioms: [propext, Classical.choice, Quot.sound]
'Verif.Float.float_promises' depends on axioms: [propext, Classical.choice, Quot.sound]
'Verif.Float.float_promises_lock' depends on axioms: [propext, Classical.choice, Quot.sound]
'Verif.Bool.bool_promises' depends on axioms: [propext, Classical.choice, Quot.sound]
'Verif.WM.DerivedDemo.sc_over' depends on axioms: [propext, Classical.choice, Quot.sound]
'Verif.Intr.intr_weak_memory' depends on axioms: [propext, Classical.choice, Quot.sound]
'Verif.Intr.intr_weak_memory_lock' depends on axioms: [propext, Classical.choice, Quot.sound]
'Verif.Intr.intr_promises' depends on axioms: [propext, Classical.choice, Quot.sound]
'Verif.Intr.intr_promises_lock' depends on axioms: [propext, Classical.choice, Quot.sound]
'Verif.Intr.intr_lock_free' depends on axioms: [propext, Quot.sound]
'Verif.Intr.Demo.over_lock' depends on axioms: [propext, Classical.choice, Quot.sound]
'Verif.Wide.arm_api_linearizable' depends on axioms: [propext, Classical.choice, Quot.sound]
'Verif.Wide.ppc_api_linearizable' depends on axioms: [propext, Classical.choice, Quot.sound]
'Verif.Wide.s390x_api_linearizable' depends on axioms: [propext, Classical.choice, Quot.sound]
'Verif.Wide.rv64_api_linearizable' depends on axioms: [propext, Classical.choice, Quot.sound]
'Verif.Wide.rv32_api_linearizable' depends on axioms: [propext, Classical.choice, Quot.sound]
'Verif.Wide.kuser_api_linearizable' depends on axioms: [propext, Classical.choice, Quot.sound]
'Verif.Wide.x86_api_linearizable' depends on axioms: [propext, Classical.choice, Quot.sound]
'Verif.Wide.x86_api_native' depends on axioms: [propext, Classical.choice, Quot.sound]
'Verif.Wide.arm_api_solo' depends on axioms: [propext, Classical.choice, Quot.sound]
'Verif.Wide.ppc_api_solo' depends on axioms: [propext, Classical.choice, Quot.sound]
'Verif.Wide.s390x_api_solo' depends on axioms: [propext, Classical.choice, Quot.sound]
'Verif.Wide.rv64_api_solo' depends on axioms: [propext, Classical.choice, Quot.sound]
'Verif.Wide.rv32_api_solo' depends on axioms: [propext, Classical.choice, Quot.sound]
'Verif.Wide.kuser_api_solo' depends on axioms: [propext, Classical.choice, Quot.sound]
'Verif.Wide.api_valid' depends on axioms: [propext, Quot.sound]
'Verif.Wide.api_orderings' depends on axioms: [propext, Quot.sound]
'Verif.Compose.int_over_lock' depends on axioms: [propext, Classical.choice, Quot.sound]
'Verif.Compose.float_over_lock' depends on axioms: [propext, Classical.choice, Quot.sound]
'Verif.Compose.int_over_irq' depends on axioms: [propext, Classical.choice, Quot.sound]
'Verif.Compose.int_over_cs' depends on axioms: [propext, Classical.choice, Quot.sound]
'Verif.Compose.over_int' depends on axioms: [propext, Classical.choice, Quot.sound]
'Verif.Compose.f128_on_arm' depends on axioms: [propext, Classical.choice, Quot.sound]
'Verif.Compose.f64_on_kuser' depends on axioms: [propext, Classical.choice, Quot.sound]
'Verif.Compose.x86_api_over_lock' depends on axioms: [propext, Classical.choice, Quot.sound]
'Verif.Compose.ppc_api_over_lock' depends on axioms: [propext, Classical.choice, Quot.sound]
'Verif.Compose.rv64_api_over_lock' depends on axioms: [propext, Classical.choice, Quot.sound]
'Verif.Compose.rv32_api_over_lock' depends on axioms: [propext, Classical.choice, Quot.sound]
'Verif.Compose.kuser_api_over_lock' depends on axioms: [propext, Classical.choice, Quot.sound]
'Verif.Compose.x86Sel_total' depends on axioms: [propext, Quot.sound]
'Verif.Compose.ppcSel_total' depends on axioms: [propext, Quot.sound]
'Verif.Compose.rv64Sel_total' depends on axioms: [propext, Quot.sound]
'Verif.Compose.rv32Sel_total' depends on axioms: [propext, Quot.sound]
'Verif.Compose.kuserSel_total' depends on axioms: [propext]
'Verif.Small.small_int' depends on axioms: [propext, Classical.choice, Quot.sound]
'Verif.Small.small_ptr' depends on axioms: [propext, Classical.choice, Quot.sound]
'Verif.Small.small_over' depends on axioms: [propext, Classical.choice, Quot.sound]
'Verif.Small.single_has' depends on axioms: [propext, Classical.choice, Quot.sound]
'Verif.Small.ptr_single_has' depends on axioms: [propext, Classical.choice, Quot.sound]
'Verif.Small.msp430_block' depends on axioms: [propext, Classical.choice, Quot.sound]
'Verif.Small.msp430_methods' depends on axioms: [propext, Quot.sound]
'Verif.Small.msp430_step' depends on axioms: [propext, Classical.choice, Quot.sound]
'Verif.Object.HW.linearizable_iff' depends on axioms: [propext, Classical.choice, Quot.sound]
'Verif.Mixed.textbook' depends on axioms: [propext, Classical.choice, Quot.sound]
'Verif.Object.locality' depends on axioms: [propext, Classical.choice, Quot.sound]
'Verif.Object.mix_part' depends on axioms: [propext]
'Verif.Mixed.mixed' depends on axioms: [propext, Classical.choice, Quot.sound]
'Verif.Mixed.mixed_steps' depends on axioms: [propext, Classical.choice, Quot.sound]
'Verif.MixedLock.shared_linearizable' depends on axioms: [propext, Classical.choice, Quot.sound]
'Verif.MixedLock.shared_refines_native' depends on axioms: [propext, Classical.choice, Quot.sound]
'Verif.MixedLock.seen_linearizable' depends on axioms: [propext, Classical.choice]
'Verif.MixedLock.shared_each_width' depends on axioms: [propext, Classical.choice, Quot.sound]
'Verif.MixedLock.over_shared' depends on axioms: [propext, Classical.choice, Quot.sound]
'Verif.MixedLock.shared_program' depends on axioms: [propext, Classical.choice, Quot.sound]
'Verif.Fallback.bothWide_sound' depends on axioms: [propext, Classical.choice, Quot.sound]
'Verif.Fallback.maxOverlap_both' depends on axioms: [propext, Quot.sound]
'Verif.WM.Crit.cs_weak_linearizable' depends on axioms: [propext, Classical.choice, Quot.sound]
'Verif.WM.Crit.cs_weak_refines_native' depends on axioms: [propext, Classical.choice, Quot.sound]
'Verif.WM.Crit.cs_weak_native' depends on axioms: [propext, Classical.choice, Quot.sound]
'Verif.WM.Crit.cs_weak_sync' depends on axioms: [propext, Classical.choice, Quot.sound]
'Verif.WM.Crit.cs_weak_total' depends on axioms: [propext, Classical.choice, Quot.sound]
'Verif.WM.Crit.cs_weak_message_passing' depends on axioms: [propext, Classical.choice, Quot.sound]
'Verif.WM.Crit.cs_plain_read_knows_writes' depends on axioms: [propext, Classical.choice, Quot.sound]
'Verif.WM.Crit.cs_plain_write_knows_all' depends on axioms: [propext, Classical.choice, Quot.sound]
'Verif.WM.Crit.cs_weak_exclusive' depends on axioms: [propext, Classical.choice, Quot.sound]
'Verif.Free.int_lock_free' depends on axioms: [propext, Classical.choice, Quot.sound]
'Verif.Free.ptr_lock_free' depends on axioms: [propext, Classical.choice, Quot.sound]
'Verif.Free.float_lock_free' depends on axioms: [propext, Classical.choice, Quot.sound]
'Verif.Free.bool_lock_free' depends on axioms: [propext, Classical.choice, Quot.sound]
'Verif.Free.x86_lock_free' depends on axioms: [propext, Classical.choice, Quot.sound]
'Verif.Free.arm_lock_free' depends on axioms: [propext, Classical.choice, Quot.sound]
'Verif.Free.ppc_lock_free' depends on axioms: [propext, Classical.choice, Quot.sound]
'Verif.Free.s390x_lock_free' depends on axioms: [propext, Classical.choice, Quot.sound]
'Verif.Free.rv64_lock_free' depends on axioms: [propext, Classical.choice, Quot.sound]
'Verif.Free.rv32_lock_free' depends on axioms: [propext, Classical.choice, Quot.sound]
'Verif.Free.kuser_lock_free' depends on axioms: [propext, Classical.choice, Quot.sound]
'Verif.Free.riscv_lock_free' depends on axioms: [propext, Classical.choice, Quot.sound]
'Verif.Free.armLinux_lock_free' depends on axioms: [propext, Classical.choice, Quot.sound]
'Verif.Free.sub_word_lock_free' depends on axioms: [propext, Classical.choice, Quot.sound]
'Verif.Free.Demo.lock_free_not_wait_free' depends on axioms: [propext, Classical.choice, Quot.sound]
'Verif.Fallback.returns_or_overtaken' depends on axioms: [propext, Classical.choice, Quot.sound]
'Verif.Fallback.returns_if_calls_stop' depends on axioms: [propext, Classical.choice, Quot.sound]
'Verif.Fallback.infinitely_many_return' depends on axioms: [propext, Classical.choice, Quot.sound]
'Verif.Fallback.stopped_holder_blocks' depends on axioms: [propext, Classical.choice, Quot.sound]
'Verif.Fallback.Starve.starved' depends on axioms: [propext, Classical.choice, Quot.sound]
'Verif.Excl.take_after_put' depends on axioms: [propext, Quot.sound]
'Verif.Excl.call_after_put' depends on axioms: [propext, Quot.sound]
'Verif.Fallback.fallback_exclusive' depends on axioms: [propext, Classical.choice, Quot.sound]
'Verif.Fallback.fallback_exclusive_valid' depends on axioms: [propext, Classical.choice, Quot.sound]
'Verif.Fallback.unguarded_write_tears' depends on axioms: [propext, Classical.choice, Quot.sound]
'Verif.Fallback.ExclDemo.runs' depends on axioms: [propext, Classical.choice, Quot.sound]
'Verif.Lf.int_exclusive' depends on axioms: [propext, Classical.choice, Quot.sound]
'Verif.Lf.ptr_exclusive' depends on axioms: [propext, Classical.choice, Quot.sound]
'Verif.Lf.float_exclusive' depends on axioms: [propext, Classical.choice, Quot.sound]
'Verif.Lf.bool_exclusive' depends on axioms: [propext, Classical.choice, Quot.sound]
'Verif.Lf.x86_exclusive' depends on axioms: [propext, Classical.choice, Quot.sound]
'Verif.Lf.arm_exclusive' depends on axioms: [propext, Classical.choice, Quot.sound]
'Verif.Lf.ppc_exclusive' depends on axioms: [propext, Classical.choice, Quot.sound]
'Verif.Lf.s390x_exclusive' depends on axioms: [propext, Classical.choice, Quot.sound]
'Verif.Lf.rv64_exclusive' depends on axioms: [propext, Classical.choice, Quot.sound]
'Verif.Lf.rv32_exclusive' depends on axioms: [propext, Classical.choice, Quot.sound]
'Verif.Lf.kuser_exclusive' depends on axioms: [propext, Classical.choice, Quot.sound]
'Verif.Lf.armLinux_exclusive' depends on axioms: [propext, Classical.choice, Quot.sound]
'Verif.Lf.riscv_exclusive' depends on axioms: [propext, Classical.choice, Quot.sound]
'Verif.Lf.bool_runs' depends on axioms: [propext, Classical.choice, Quot.sound]
'Verif.Cs.cs_exclusive_access' depends on axioms: [propext, Classical.choice, Quot.sound]
'Verif.Cs.cs_owner_undisturbed' depends on axioms: [propext, Classical.choice, Quot.sound]
'Verif.Cs.excl_runs' depends on axioms: [propext, Classical.choice, Quot.sound]
'Verif.Irq.irq_exclusive_access' depends on axioms: [propext, Classical.choice, Quot.sound]
'Verif.Irq.irq_owner_undisturbed' depends on axioms: [propext, Classical.choice, Quot.sound]
'Verif.Irq.ownerRun_outcome' depends on axioms: [propext, Classical.choice, Quot.sound]
'Verif.Update.no_lost_update' depends on axioms: [propext, Classical.choice, Quot.sound]
'Verif.Update.result_shown' depends on axioms: [propext, Classical.choice, Quot.sound]
'Verif.Update.update_explained' depends on axioms: [propext, Quot.sound]
'Verif.Update.fallback_update' depends on axioms: [propext, Classical.choice, Quot.sound]
'Verif.Update.int_update' depends on axioms: [propext, Classical.choice, Quot.sound]
'Verif.Update.ptr_update' depends on axioms: [propext, Classical.choice, Quot.sound]
'Verif.Update.float_update' depends on axioms: [propext, Classical.choice, Quot.sound]
'Verif.Update.bool_update' depends on axioms: [propext, Classical.choice, Quot.sound]
'Verif.Update.closure_holds_no_lock' depends on axioms: [propext, Classical.choice, Quot.sound]
'Verif.Update.Demo.low_runs' depends on axioms: [propext, Classical.choice, Quot.sound]
'Verif.Update.Demo.high_runs' depends on axioms: [propext, Classical.choice, Quot.sound]
'Verif.Update.api_update' depends on axioms: [propext, Classical.choice, Quot.sound]
'Verif.Update.arm_update' depends on axioms: [propext, Classical.choice, Quot.sound]
'Verif.Update.ppc_update' depends on axioms: [propext, Classical.choice, Quot.sound]
'Verif.Update.s390x_update' depends on axioms: [propext, Classical.choice, Quot.sound]
'Verif.Update.rv64_update' depends on axioms: [propext, Classical.choice, Quot.sound]
'Verif.Update.rv32_update' depends on axioms: [propext, Classical.choice, Quot.sound]
'Verif.Update.kuser_update' depends on axioms: [propext, Classical.choice, Quot.sound]
'Verif.Update.x86_update' depends on axioms: [propext, Classical.choice, Quot.sound]
'Verif.Update.cs_update' depends on axioms: [propext, Classical.choice, Quot.sound]
'Verif.Update.irq_update' depends on axioms: [propext, Classical.choice, Quot.sound]
'Verif.Update.cs_closure_outside' depends on axioms: [propext, Classical.choice, Quot.sound]
'Verif.Update.CsDemo.nested' depends on axioms: [propext, Classical.choice, Quot.sound]
'Verif.Rv.packed_independent' depends on axioms: [propext, Classical.choice, Quot.sound]
'Verif.Rv.flags_independent' depends on axioms: [propext, Classical.choice, Quot.sound]
'Verif.Rv.flag_accesses' depends on axioms: [propext, Quot.sound]
'Verif.Rv.Demo.runs' depends on axioms: [propext, Classical.choice, Quot.sound]
'Verif.Rv.Demo.run' depends on axioms: [propext, Quot.sound]
'Verif.Irq.op_bounded' depends on axioms: [propext, Classical.choice, Quot.sound]
'Verif.Irq.op_never_blocks' depends on axioms: [propext, Classical.choice, Quot.sound]
'Verif.Irq.op_returns' depends on axioms: [propext, Classical.choice, Quot.sound]
'Verif.Irq.latency_bounded' depends on axioms: [propext, Classical.choice, Quot.sound]
'Verif.Irq.bound_reached' depends on axioms: [propext, Classical.choice, Quot.sound]
'Verif.Irq.masked_stretch' depends on axioms: [propext, Classical.choice, Quot.sound]
'Verif.Cs.cs_op_bounded' depends on axioms: [propext, Classical.choice, Quot.sound]
'Verif.Cs.cs_waits_only_at_entry' depends on axioms: [propext, Classical.choice, Quot.sound]
'Verif.Cs.cs_no_deadlock' depends on axioms: [propext, Classical.choice, Quot.sound]
'Verif.Cs.sections_end' depends on axioms: [propext, Classical.choice, Quot.sound]
'Verif.Cs.cs_returns_or_overtaken' depends on axioms: [propext, Classical.choice, Quot.sound]
'Verif.Cs.cs_returns_once_entered' depends on axioms: [propext, Classical.choice, Quot.sound]
'Verif.Cs.cs_returns_forever' depends on axioms: [propext, Classical.choice, Quot.sound]
'Verif.Cs.Starve.endless' depends on axioms: [propext, Classical.choice, Quot.sound]
'Verif.Cs.Starve.fair' depends on axioms: [propext, Classical.choice, Quot.sound]
'Verif.Cs.Starve.ends' depends on axioms: [propext, Quot.sound]
'Verif.Cs.Starve.starves' depends on axioms: [propext, Quot.sound]
'Verif.Lsfe.decode_encode' depends on axioms: [propext, Quot.sound]
'Verif.Lsfe.lsfe_encodings' depends on axioms: [propext, Quot.sound]
'Verif.Lsfe.lsfe_linearizable' depends on axioms: [propext, Classical.choice, Quot.sound]
'Verif.Lsfe.lsfe_finishes' depends on axioms: [propext, Classical.choice, Quot.sound]
'Verif.Lsfe.lsfe_is_float_prog' depends on axioms: [propext, Quot.sound]
'Verif.Lsfe.lsfe_acquire' depends on axioms: [propext, Classical.choice, Quot.sound]
'Verif.Lsfe.lsfe_release' depends on axioms: [propext, Quot.sound]
'Verif.Lsfe.lsfe_seqCst' depends on axioms: [propext, Classical.choice, Quot.sound]
'Verif.Lsfe.lsfe_arm_seqCst' depends on axioms: [propext, Classical.choice, Quot.sound]
'Verif.X86.Bits.bits_exact' depends on axioms: [propext, Classical.choice, Quot.sound]
'Verif.X86.Bits.bits_are_int_prog' depends on axioms: [propext, Classical.choice, Quot.sound]
'Verif.X86.Bits.bits_linearizable' depends on axioms: [propext, Classical.choice, Quot.sound]
'Verif.X86.Bits.bits_finishes' depends on axioms: [propext, Classical.choice, Quot.sound]
