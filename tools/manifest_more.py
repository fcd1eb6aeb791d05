add('C14','proved',['C14_round_trip'])
add('C15','partial',['C15_bounds_false','C15_bounds_partial'],'the terminator of an exactly filling message is written to address 2048; everything else proved')
add('C16','partial',['C16_crash_keeps_old','C16_crash_partial','C16_crash_atomic_false'],'old messages survive every crash point; atomicity is false')
add('C17','partial',['C17_replay_partial','C17_replay_false'],'message 0 is never replayed; the others cyclically in order')
add('C18','partial',['C18_power_cycle_partial','C18_single_false'],'mode after power-up and contents proved; message 0 is not replayed')
add('C19','partial',['C19_scan_terminates','C19_overrun_partial','C19_overrun_false'],'scan terminates for all contents; buffer overrun for foreign contents')
add('C20','proved',['C20_commands','C20_every','C20_method','C20_velocity','C20_number','C28_position','C28_orientation','C28_axis','C28_additional_axis','C31_output','C34_command'],'whole-instruction decomposition plus the effect of each kind of command')
add('C21','proved',['C21_no_motion','C21_closed','C21_open'])
add('C22','proved',['C22_comment','C22_before','C22_unknown'])
add('C23','proved',['C23_read_command','C23_reads','C23_numbered_reads'])
add('C26','partial',['C26_token_false','C26_long_false','C26_axis_false','C26_pin_false','C26_memory_partial','C26_safe','C26_unsafe','C26_exact'],'false of the code; C26_exact: for every byte string, exactly which texts are read without leaving the tables (C26_safe), and that no environment lets the parser through any other (C26_unsafe)')
add('C27','proved',['C27_decimal'])
add('C28','partial',['C28_position','C28_orientation','C28_axis','C28_additional_axis'],'write side proved; read-back equality over exact reals to follow')
add('C29','partial',['C29_separator_false','C29_separator_partial'],'false of the code before a command letter')
add('C30','proved',['C30_release','C30_blocks'])
add('C31','proved',['C31_output'])
add('C32','partial',['C32_capacity_false','C32_capacity_partial'],'the 11th pending condition is written out of bounds')
add('C33','proved',['C33_target_state'])
add('C34','proved',['C34_wait','C34_blocks','C34_command'])
add('C35','partial',['C35_wrap_false','C35_wrap_partial'],'false across the wrap')
add('C11','proved',['C11_delivery','C11_free','C11_execute','C11_queue','C11_clear','C11_store','C11_erase'])
add('C12','proved',['C12_report','C12_accepts','C12_refuses'])
add('C13','proved',['C13_busy','C13_takes','C13_one_per_pass','C13_mode'])
add('C60','proved',['C60_sequencing'])
add('C61','proved',['C61_head','C61_order','C61_subsequence'])
add('C64','proved',['C64_at_most_30','C64_fifo'])
add('C65','proved',['C65_immediate'])
add('C24','proved',['C24_balance','C24_idle'])
add('C25','partial',['C25_complete_partial','C25_complete_false'],'proved for instructions that contain a command after N, from any source; false in general: an instruction ending in its N command sends N0 but never N1')
add('C63','partial',['C63_frames_partial','C63_frames_false'],'every message is a well-formed frame; false for the whole output: move durations and errors are printed outside of frames')
add('C36','partial',['C36_speed_partial','C36_speed_nan_false','C36_speed_small_max_false'],'proved for numeric velocities and maxima of at least 0.1; NaN passes, a smaller maximum is exceeded by the 0.1 floor')
add('C37','proved',['C37_range','C37_nan_false'],'the second theorem shows that the exclusion of NaN velocities is necessary')
add('C38','proved',['C38_position','C38_stays','C38_arrives','C38_monotone','C38_wrap_false'],'the last theorem shows that the provision on the time counter is necessary')
add('C39','partial',['C39_tick_partial','C39_tick_false'],'proved while the speed is unchanged since the target was set; a speed change in between makes the position jump')
add('C40','proved',['C40_pulse_range','C40_pulse_ends','C40_pulse_monotone'])
add('C41','proved',['C41_limits','C41_all_or_none'],'limits in the sense of the comparisons of the code: a NaN is neither below nor above a limit')
add('C42','partial',['C42_p2p','C42_linear','C42_linear_first'],'proved for angle targets and linear way points; point-to-point moves to an unreachable pose: see C50')
add('C43','partial',['C43_nothing_starts'])
add('C44','proved',['C44_mixed','C44_flags'])
add('C49','proved',['C49_set_get'])
add('C51','proved',['C51_set_moving','C51_idle_means_arrived','C51_prepare'])
add('C52','proved',['C52_readings'])
add('C66','proved',['C66_stop'])
add('C41','proved',['C41_limits','C41_all_or_none','C41_in_range'],'limits in the sense of the comparisons of the code: a NaN is neither below nor above a limit; C41_in_range for numeric angles')
add('C42','partial',['C42_p2p','C42_linear','C42_linear_first','C42_unreachable_false'],'proved for angle targets and linear way points; false for a point-to-point move to an unreachable pose while stale target angles differ')
add('C43','proved',['C43_nothing_starts','C43_retained','C43_together'])
add('C45','proved',['C45_together','C48_p2p'])
add('C46','proved',['C46_line','C47_segments'])
add('C47','proved',['C47_segments','C47_at_most','C47_ends'])
add('C48','proved',['C48_p2p','C48_linear','C48_linear_first'])
add('C50','partial',['C50_retained_false','C42_linear','C42_linear_first'],'false of the code: the unreachable target pose is retained; only linear way points reset the target')
add('C67','partial',['C67_defined','C67_circular','C67_linear','C67_rounded_steps_false','C67_rounded_false'],'no undefined behaviour for P2P (C67_defined), nor for LINEAR in exact arithmetic (C67_linear); false for CIRCULAR, which reads uninitialised angles, and for LINEAR in IEEE binary32, where acos of a number rounded above 1 gives NaN, which is converted to int (C67_rounded_false)')
add('C53','proved',['C53_joints','C53_forward'],'over exact real arithmetic')
add('C54','proved',['C54_links','C54_tool'],'over exact real arithmetic')
add('C55','proved',['C55_orientation','C53_forward'],'over exact real arithmetic')
add('C56','proved',['C56_inverse','C56_round_trip','C56_singular_false'],'over exact real arithmetic; the last theorem shows that the exclusion of the straight wrist is necessary')
add('C57','proved',['C57_range'],'over exact real arithmetic')
add('C68','proved',['C68_accepted'],'over exact real arithmetic')
add('C69','proved',['C69_same','C69_kit'],'over exact real arithmetic; C69_kit is the exact equality for the kit')
add('C58','proved',['C58_kit'],'over exact real arithmetic')
add('C59','proved',['C59_robotD','C59_back'],'over exact real arithmetic; even for -25°..90°')
add('C62','proved',['C62_range','C62_constants','C62_pulse','C62_kit','C62_nan'],'for every history of the whole system over exact arithmetic in which no NaN was stored into an arm servo; C62_nan shows why the exclusion is needed')
add('C28','proved',['C28_position','C28_orientation','C28_axis','C28_additional_axis','C28_axis_back','C28_additional_back','C28_pose_back','C28_velocity_back','C28_method_back'],'write side for any arithmetic; read-back over exact arithmetic, when the arm stands where it was told to')
add('C70','partial',['C70_range_partial','C70_unchecked_false','C70_pulse_false'],'the firmware does not check the range of R6, R7 (witness); proved for all histories in which only angles within the range are commanded')
add('C71','proved',['C71_looks','C71_same_pass'])
add('C72','proved',['C72_picture'],'over exact real arithmetic; drawing commands, not pixels')
add('C73','proved',['C73_bars','C73_inside'],'over exact real arithmetic; drawing commands, not pixels')
add('C74','partial',['C74_marks_partial','C74_shared_pin_false'],'per pin; on the kit inputs 4 and 6-9 share a pin and are shown together')
add('C75','partial',['C75_not_awaited_false','C60_sequencing','C24_idle'],'false of the code: only the arm, inputs and waits are awaited (C60, C24)')
add('C76','partial',['C76_arrived_partial','C76_immediate_false'],'proved for all histories in which immediate (E) instructions that name a place for the arm are only given while it is at rest (others at any time); false otherwise (witness: a refused immediate instruction ends the supervision of a move under way)')
add('C37','proved',['C37_range','C37_nan_false','C37_rounded','C37_exact_false'],'exact arithmetic: C37_range; with rounding (every float format, any libm): C37_rounded, with a slack of four rounding errors, necessary by C37_exact_false (binary32); C37_nan_false: the exclusion of NaN velocities is necessary')
add('C38','proved',['C38_position','C38_stays','C38_arrives','C38_monotone','C38_wrap_false','C38_rounded','C38_accuracy'],'exact arithmetic, and IEEE binary32 (C38_rounded: exactly at the target one tick after the exact time at the latest; C38_accuracy); C38_wrap_false: the provision on the time counter is necessary')
add('C40','proved',['C40_pulse_range','C40_pulse_ends','C40_pulse_monotone','C40_rounded'],'exact arithmetic, and IEEE binary32 (C40_rounded, to one microsecond)')
add('C62','proved',['C62_range','C62_constants','C62_pulse','C62_kit','C62_nan','C62_rounded','C62_kit_rounded'],'for every history of the whole system in which no NaN was stored into an arm servo: over exact arithmetic (C62_range, C62_pulse, C62_kit), over every rounded format with any libm (C62_rounded), for the kit in IEEE binary32 (C62_kit_rounded); C62_nan shows why the exclusion of NaN is needed')
add('C77','proved',['C77_rest','C77_exact','C77_kit','C77_rounded','C77_kit_rounded'],'C77_rest: any arithmetic in which servos left alone arrive; C77_exact: exact arithmetic, any robot, positive speeds bounded away from 0, no NaN; C77_kit: the kit; C77_rounded: any rounded format, C77_kit_rounded: the kit in IEEE binary32')
add('C78','proved',['C78_started'],'endless histories in which the pass conditions recur (fairness) and servos left alone would arrive')
add('C79','proved',['C79_drained','C79_kit_rounded'],'C79_kit_rounded: the kit in IEEE binary32')
add('C80','proved',['C80_reported','C80_kit_rounded'],'for instructions containing one number, in front of the last token (C25); C80_kit_rounded: the kit in IEEE binary32')
add('C81','proved',['C81_any','C81_kit'],'over exact arithmetic with NaN and infinities; C81_any: any arm geometry, couplings that give numbers for numbers; C81_kit: the kit. That the conditions are needed: C26_*_false, C09, C32, C35, C37_nan_false')
add('C82','proved',['C82_kit'],'over exact arithmetic')
add('C83','proved',['C83_kit'],'over exact arithmetic; provided no positive speed below 1/1000 rad/s is commanded')

add('C84','proved',['C84_angles','C84_kit'],'C84_angles for every number type; C84_kit in numbers for the robot kit with a careful host, all six angles given')
add('C85','proved',['C85_pose','C85_kit'],'nothing is claimed for poses out of reach (the firmware then moves to the old angles, C42)')
add('C86','proved',['C86_line','C86_line_angles','C86_kit'],'for every number type; near the wrist singularity axes 3 and 5 keep the servo readings')
add('C87','proved',['C87_course','C87_kit'])
add('C88','proved',['C88_kit','C88_queue','C88_pose','C88_line'],'over exact arithmetic')

add('C89','proved',['C89_nothing_lost','C89_started'])
add('C90','proved',['C90_executed','C90_kit','C90_kit_rounded'],'C90_kit_rounded: the kit in IEEE binary32; C90_executed: any arithmetic in which servos left alone arrive; C90_kit: the kit in exact arithmetic with a careful host')
add('C91','proved',['C91_at_once','C91_all','C91_prefix'])

add('C92','proved',['C92_program','C92_cut'])
add('C93','proved',['C93_replay','C93_since'],'that the first stored instruction is not replayed is C17')
add('C94','proved',['C94_lives'])
add('C95','proved',['C95_next','C95_again','C95_kit','C95_kit_rounded'],'C95_kit_rounded: the kit in IEEE binary32; C95_next, C95_again: any arithmetic in which servos left alone arrive; C95_kit: the kit in exact arithmetic with a careful host')
add('C96','proved',['C96_storage','C96_kit','C96_interrupted_false'],'over exact arithmetic; C96_interrupted_false: why storing must not be interrupted')

add('C97','proved',['C97_text','C97_read'],'how a float is printed is a parameter, assumed to be decimal text of its value')
add('C98','proved',['C98_true','C98_asked'],'C98_asked: instructions made of plain commands')
add('C99','partial',['C99_answered_partial','C99_answered_false'],'proved for instructions whose last command is the question; false otherwise: questions followed by another command are not answered')

add('C100','proved',['C100_rest','C100_reported','C100_drained','C100_executed','C100_again','C100_queue','C100_race_false'],'exact arithmetic; C100_race_false: the condition on the interrupt is needed')

add('C101','proved',['C101_memory'],'any arithmetic, any robot with ten pins; the conversion of the number of parts of a line is the only fault left (excluded for careful hosts by C81)')
add('C102','proved',['C102_lost'],'any arithmetic; together with C101 the class of texts is exact')

add('C103','proved',['C103_faultless'],'any arithmetic, any robot with ten pins')

add('C104','proved',['C104_numbers','C104_range','C104_reported'],'binary32 with any libm; for the liveness part the square root must not be negative')

add('C105','proved',['C105_told','C105_course','C105_reported'],'binary32 with any libm; for the liveness part the square root must not be negative')
add('C106','proved',['C106_ready','C106_sent','C106_sent_angles','C106_sent_line','C106_executed','C106_drained'],'C106_ready for any robot and arithmetic; the rest for the kit over exact arithmetic, with undivided updates of the speed (see C100)')
add('C107','proved',['C107_rest','C107_reported','C107_drained','C107_executed','C107_again','C107_told','C107_sent','C107_sent_angles'],'binary32 with any libm whose square roots are not negative; the condition on the interrupt is needed by C100_race_false in exact arithmetic')
add('C108','proved',['C108_rest','C108_rounded'],'C108_rest: exact arithmetic; C108_rounded: IEEE binary32, a host that moves by joint angles. The condition on the interrupt is needed (C100_race_false), and so is the one on immediate instructions (C76_immediate_false)')
add('C109','proved',['C109_told','C109_pose','C109_queue','C109_sent','C109_rounded','C109_sent_rounded'],'C109_rounded, C109_sent_rounded: IEEE binary32 (1.3e-4 radians), any libm, joint moves; the others exact arithmetic')
add('C110','proved',['C110_angles','C110_pose','C110_line','C110_line_angles','C110_rest','C110_told','C110_pose_at','C110_line_kit','C110_rest_rounded','C110_rounded'],'the first four: any robot, any arithmetic; *_rounded: IEEE binary32; the others the kit over exact arithmetic')
add('C111','proved',['C111_reported','note_own'],'any arithmetic in which servos left alone arrive; note_own: the first N1 is its own')
add('C112','proved',['C112_calm','C112_started','C112_reported','C112_sent','C112_told','C112_pose','C112_line','C112_rounded'],'C112_calm, C112_started, C112_reported: any robot and arithmetic; C112_rounded: IEEE binary32; C112_demo, C112_demo_rounded: a reactive host running with the controller that meets all hypotheses')
add('C113','proved',['C113_near','C113_pose','C113_told','C113_sent','C113_queue','C113_rounded'],'C113_near: geometry alone; C113_pose, C113_told: the setting of C110; C113_sent, C113_queue: total correctness with the hosts of C112 and C106; C113_rounded: IEEE binary32, joint angles; C113_demo: a run that meets all hypotheses')
add('C114','proved',['C114_line','C114_free','C114_sent','C114_queue'],'the kit over exact arithmetic; C114_sent, C114_queue: total correctness with the hosts of C112 and C106')
add('C115','proved',['C115_told','C115_sent','C115_queue'],'the kit over exact arithmetic; C115_demo, C115_demo_now: runs that meet all hypotheses, which are also those of C114')
add('C116','partial',['C116_start_partial','C116_unseen_false','C116_upright_false'],'proved: defined and drawn to scale for every geometry whose picture keeps clear of the left and upper edge, in particular every arm built in one plane; false of the code: that the drawing lies on the display (C116_unseen_false), and that it is defined for every geometry (C116_upright_false)')
add('C117','proved',['C117_still','C117_boot','C117_answered','C117_rest','C117_told','C117_pose','C117_free','C117_queue_told','C117_queue_pose'],'C117_still, C117_boot, C117_answered: any robot and arithmetic; the others the kit over exact arithmetic; C117_queue_*: total correctness with the host of C106; C117_demo: a run that meets all hypotheses. Simple instructions whose last command is the question (C99)')
add('C118','proved',['C118_asif','C118_all'],'the history without the questions receives the other bytes when they are read (their times of arrival are not kept); the input buffer may differ after the end of a line, where it has no meaning')
add('C119','proved',['C119_told','C119_pose','C119_line','C119_tool','C119_queue','C119_line_queue','C119_turns','C119_line_turns'],'the kit over exact arithmetic, interrupts not inside the command of a servo; *_queue, *_turns: total correctness with the hosts of C106 and C112; C119_demo, C119_line_demo: runs that meet all hypotheses')
add('C120','proved',['C120_smooth'],'the kit over exact arithmetic, interrupts not inside the command of a servo; any order of immediate and queued instructions. C119_demo: a run that meets all hypotheses')
add('C121','proved',['C121_told','C121_pose','C121_queue','C121_turns'],'the kit over exact arithmetic, interrupts not inside the command of a servo; C121_queue, C121_turns: total correctness with the hosts of C106 and C112; C121_demo: a run that meets all hypotheses. A servo told to turn by exactly nothing is given 0.1 radians per second by the code, and does not move')
add('C122','proved',['C122_trace','C122_line','C122_time','C122_queue','C122_turns'],'C122_trace: the commands, any arithmetic; C122_line, C122_time: the kit over exact arithmetic, interrupts not inside the command of a servo; C122_queue, C122_turns: total correctness with the hosts of C106 and C112; C122_demo: a run that meets all hypotheses. Only the wrist is guaranteed to be at the points of the way (C88), so the time of the first part is only bounded if the tool is too; the speed between two points is bounded per servo')
add('C123','proved',['C123_angles','C123_poses','C123_lines','C123_told','C123_pose','C123_line','C123_queue','C123_queue_angles','C123_queue_pose','C123_queue_line'],'C123_angles/poses/lines: any arithmetic, any configuration, every history; C123_told/pose/line: the kit over exact arithmetic; C123_queue…: total correctness for a counting host; C123_demo satisfies all hypotheses')
add('C124','proved',['C124_last','C124_read','C124_told','C124_pose','C124_free','C124_queue_told','C124_queue_pose'],'C124_last: any arithmetic and printer; the rest: the kit over exact arithmetic, every printer to two decimals (TwoDecimals; print2 is one); C124_demo satisfies all hypotheses')
add('C125','proved',['C125_true','C125_read','C125_queue'],'C125_true: any arithmetic; the rest: the kit over exact arithmetic, every printer to two decimals; C125_demo satisfies all hypotheses')
add('C126','proved',['C126_exact','C126_only','C126_before','C126_done','C126_stays','C126_queue','C126_queue_rest'],'all but the queue theorems: any arithmetic and pin map; the queue: the kit over exact arithmetic; C126_demo satisfies all hypotheses')
add('C127','proved',['C127_waits','C127_time'],'any arithmetic, any pin map of ten; C128_demo satisfies the hypotheses')
add('C128','proved',['C128_ready','C128_executed','C128_reported'],'C128_ready: any arithmetic; the others: the kit over exact arithmetic; C128_demo satisfies all hypotheses')
add('C129','proved',['C129_goes','C129_read','C129_queue'],'any configuration with such servos, exact arithmetic; C129_queue: the kit; C129_demo satisfies all hypotheses')
add('C130','proved',['C130_pass','C130_boot','C130_passes','C130_read','C130_reaction'],'accesses of the model are counted (an EEPROM scan is one access); C130_endless shows the bound is reached in every endless history, C130_demo the kit')
add('C131','proved',['C131_next','C131_only','C131_pass','C131_queue','C131_rest','C131_timing'],'histories without immediate instructions; liveness for the kit in exact arithmetic, at most one N per instruction; C131_demo satisfies all hypotheses')
add('C132','proved',['C132_order','C132_only','C132_same','C132_again','C132_kit','C132_reported','C132_moves','C132_poses','C132_lines'],'order, conversation and pins for every configuration; that it never stops for the kit in exact arithmetic, programs without I and D; C132_demo satisfies all hypotheses')
add('C133','proved',['C133_rules','C133_pass','C133_reports','C133_answers'],'every history whose instructions name axes and methods by one digit, immediate ones included; C133_demo is a concrete history with an interruption')
add('C134','proved',['C134_watched','C134_kit','C134_waiting','C134_single'],'every robot and arithmetic, given that servos settle and waits end; proved of the kit in exact arithmetic (with and without waits) and in binary32 (joint angles); instructions with at most one N; C134_demo, C134_single_demo satisfy all hypotheses')
add('C135','proved',['C135_stale','C135_never'],'every history whose instructions name axes and methods by one digit; C135_demo is a concrete history')
add('C136','proved',['C136_angles','C136_pose','C136_line','C136_timing','C136_rounded'],'the kit over the exact numbers; the hypotheses on hosts are those of C131; C136_demo: two histories with arbitrary clocks and inputs; C136_rounded: joint moves in binary32, C136_demo_rounded')
add('C137','proved',['C137_ends','C137_waiting','C137_rounded','C137_same'],'C137_ends assumes the liveness of servos and waits, proved for the kit in C137_waiting and C137_rounded; C137_demo: two histories in two arithmetics')
add('C138','proved',['C138_angles','C138_pose','C138_line','C138_pauses','C138_rounded'],'C138_demo and C138_demo_rounded satisfy all hypotheses')
add('C139','proved',['C139_everything','C139_angles','C139_same'],'for the kit over exact numbers, M0 in force for the last place; C139_demo satisfies all hypotheses')
add('C140','proved',['C140_angles','C140_pose','C140_same','C140_rounded'],'for the kit; C140_demo satisfies all hypotheses')
