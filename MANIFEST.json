{
 "claims": [
  {
   "property": "C01",
   "status": "proved",
   "theorems": [
    "Mrc.Props.C01_queue_is_fifo"
   ],
   "note": ""
  },
  {
   "property": "C02",
   "status": "proved",
   "theorems": [
    "Mrc.Props.C02_capacity"
   ],
   "note": ""
  },
  {
   "property": "C03",
   "status": "partial",
   "theorems": [
    "Mrc.Props.C03_putBytesInFront_false",
    "Mrc.Props.C03_putBytesInFront_partial"
   ],
   "note": "false of the code: the last byte of the message is dropped; proved what it does"
  },
  {
   "property": "C04",
   "status": "proved",
   "theorems": [
    "Mrc.Props.C04_byte_deque"
   ],
   "note": ""
  },
  {
   "property": "C05",
   "status": "proved",
   "theorems": [
    "Mrc.Props.C05_decode",
    "Mrc.Props.C05_concat"
   ],
   "note": ""
  },
  {
   "property": "C06",
   "status": "proved",
   "theorems": [
    "Mrc.Props.C06_noise"
   ],
   "note": ""
  },
  {
   "property": "C07",
   "status": "proved",
   "theorems": [
    "Mrc.Props.C07_case"
   ],
   "note": ""
  },
  {
   "property": "C08",
   "status": "partial",
   "theorems": [
    "Mrc.Props.C08_comment_false",
    "Mrc.Props.C08_comment_partial"
   ],
   "note": "false when the comment contains ':'; proved otherwise"
  },
  {
   "property": "C09",
   "status": "partial",
   "theorems": [
    "Mrc.Props.C09_memory_safe_false",
    "Mrc.Props.C09_memory_partial",
    "Mrc.Props.C09_payload_bound"
   ],
   "note": "false of the code; exact set of unsafe streams proved"
  },
  {
   "property": "C10",
   "status": "partial",
   "theorems": [
    "Mrc.Props.C10_resync_false",
    "Mrc.Props.C10_resync_partial",
    "Mrc.Props.C10_resync_cr"
   ],
   "note": "false after an open comment or over-long garbage; proved otherwise"
  },
  {
   "property": "C100",
   "status": "proved",
   "theorems": [
    "Mrc.Props.C100_rest",
    "Mrc.Props.C100_reported",
    "Mrc.Props.C100_drained",
    "Mrc.Props.C100_executed",
    "Mrc.Props.C100_again",
    "Mrc.Props.C100_queue",
    "Mrc.Props.C100_race_false"
   ],
   "note": "exact arithmetic; C100_race_false: the condition on the interrupt is needed"
  },
  {
   "property": "C101",
   "status": "proved",
   "theorems": [
    "Mrc.Props.C101_memory"
   ],
   "note": "any arithmetic, any robot with ten pins; the conversion of the number of parts of a line is the only fault left (excluded for careful hosts by C81)"
  },
  {
   "property": "C102",
   "status": "proved",
   "theorems": [
    "Mrc.Props.C102_lost"
   ],
   "note": "any arithmetic; together with C101 the class of texts is exact"
  },
  {
   "property": "C103",
   "status": "proved",
   "theorems": [
    "Mrc.Props.C103_faultless"
   ],
   "note": "any arithmetic, any robot with ten pins"
  },
  {
   "property": "C104",
   "status": "proved",
   "theorems": [
    "Mrc.Props.C104_numbers",
    "Mrc.Props.C104_range",
    "Mrc.Props.C104_reported"
   ],
   "note": "binary32 with any libm; for the liveness part the square root must not be negative"
  },
  {
   "property": "C105",
   "status": "proved",
   "theorems": [
    "Mrc.Props.C105_told",
    "Mrc.Props.C105_course",
    "Mrc.Props.C105_reported"
   ],
   "note": "binary32 with any libm; for the liveness part the square root must not be negative"
  },
  {
   "property": "C106",
   "status": "proved",
   "theorems": [
    "Mrc.Props.C106_ready",
    "Mrc.Props.C106_sent",
    "Mrc.Props.C106_sent_angles",
    "Mrc.Props.C106_sent_line",
    "Mrc.Props.C106_executed",
    "Mrc.Props.C106_drained"
   ],
   "note": "C106_ready for any robot and arithmetic; the rest for the kit over exact arithmetic, with undivided updates of the speed (see C100)"
  },
  {
   "property": "C107",
   "status": "proved",
   "theorems": [
    "Mrc.Props.C107_rest",
    "Mrc.Props.C107_reported",
    "Mrc.Props.C107_drained",
    "Mrc.Props.C107_executed",
    "Mrc.Props.C107_again",
    "Mrc.Props.C107_told",
    "Mrc.Props.C107_sent",
    "Mrc.Props.C107_sent_angles"
   ],
   "note": "binary32 with any libm whose square roots are not negative; the condition on the interrupt is needed by C100_race_false in exact arithmetic"
  },
  {
   "property": "C108",
   "status": "proved",
   "theorems": [
    "Mrc.Props.C108_rest",
    "Mrc.Props.C108_rounded"
   ],
   "note": "C108_rest: exact arithmetic; C108_rounded: IEEE binary32, a host that moves by joint angles. The condition on the interrupt is needed (C100_race_false), and so is the one on immediate instructions (C76_immediate_false)"
  },
  {
   "property": "C109",
   "status": "proved",
   "theorems": [
    "Mrc.Props.C109_told",
    "Mrc.Props.C109_pose",
    "Mrc.Props.C109_queue",
    "Mrc.Props.C109_sent",
    "Mrc.Props.C109_rounded",
    "Mrc.Props.C109_sent_rounded"
   ],
   "note": "C109_rounded, C109_sent_rounded: IEEE binary32 (1.3e-4 radians), any libm, joint moves; the others exact arithmetic"
  },
  {
   "property": "C11",
   "status": "proved",
   "theorems": [
    "Mrc.Props.C11_delivery",
    "Mrc.Props.C11_free",
    "Mrc.Props.C11_execute",
    "Mrc.Props.C11_queue",
    "Mrc.Props.C11_clear",
    "Mrc.Props.C11_store",
    "Mrc.Props.C11_erase"
   ],
   "note": ""
  },
  {
   "property": "C110",
   "status": "proved",
   "theorems": [
    "Mrc.Props.C110_angles",
    "Mrc.Props.C110_pose",
    "Mrc.Props.C110_line",
    "Mrc.Props.C110_line_angles",
    "Mrc.Props.C110_rest",
    "Mrc.Props.C110_told",
    "Mrc.Props.C110_pose_at",
    "Mrc.Props.C110_line_kit",
    "Mrc.Props.C110_rest_rounded",
    "Mrc.Props.C110_rounded"
   ],
   "note": "the first four: any robot, any arithmetic; *_rounded: IEEE binary32; the others the kit over exact arithmetic"
  },
  {
   "property": "C111",
   "status": "proved",
   "theorems": [
    "Mrc.Props.C111_reported",
    "Mrc.Props.note_own"
   ],
   "note": "any arithmetic in which servos left alone arrive; note_own: the first N1 is its own"
  },
  {
   "property": "C112",
   "status": "proved",
   "theorems": [
    "Mrc.Props.C112_calm",
    "Mrc.Props.C112_started",
    "Mrc.Props.C112_reported",
    "Mrc.Props.C112_sent",
    "Mrc.Props.C112_told",
    "Mrc.Props.C112_pose",
    "Mrc.Props.C112_line",
    "Mrc.Props.C112_rounded"
   ],
   "note": "C112_calm, C112_started, C112_reported: any robot and arithmetic; C112_rounded: IEEE binary32; C112_demo, C112_demo_rounded: a reactive host running with the controller that meets all hypotheses"
  },
  {
   "property": "C113",
   "status": "proved",
   "theorems": [
    "Mrc.Props.C113_near",
    "Mrc.Props.C113_pose",
    "Mrc.Props.C113_told",
    "Mrc.Props.C113_sent",
    "Mrc.Props.C113_queue",
    "Mrc.Props.C113_rounded"
   ],
   "note": "C113_near: geometry alone; C113_pose, C113_told: the setting of C110; C113_sent, C113_queue: total correctness with the hosts of C112 and C106; C113_rounded: IEEE binary32, joint angles; C113_demo: a run that meets all hypotheses"
  },
  {
   "property": "C114",
   "status": "proved",
   "theorems": [
    "Mrc.Props.C114_line",
    "Mrc.Props.C114_free",
    "Mrc.Props.C114_sent",
    "Mrc.Props.C114_queue"
   ],
   "note": "the kit over exact arithmetic; C114_sent, C114_queue: total correctness with the hosts of C112 and C106"
  },
  {
   "property": "C115",
   "status": "proved",
   "theorems": [
    "Mrc.Props.C115_told",
    "Mrc.Props.C115_sent",
    "Mrc.Props.C115_queue"
   ],
   "note": "the kit over exact arithmetic; C115_demo, C115_demo_now: runs that meet all hypotheses, which are also those of C114"
  },
  {
   "property": "C116",
   "status": "partial",
   "theorems": [
    "Mrc.Props.C116_start_partial",
    "Mrc.Props.C116_unseen_false",
    "Mrc.Props.C116_upright_false"
   ],
   "note": "proved: defined and drawn to scale for every geometry whose picture keeps clear of the left and upper edge, in particular every arm built in one plane; false of the code: that the drawing lies on the display (C116_unseen_false), and that it is defined for every geometry (C116_upright_false)"
  },
  {
   "property": "C117",
   "status": "proved",
   "theorems": [
    "Mrc.Props.C117_still",
    "Mrc.Props.C117_boot",
    "Mrc.Props.C117_answered",
    "Mrc.Props.C117_rest",
    "Mrc.Props.C117_told",
    "Mrc.Props.C117_pose",
    "Mrc.Props.C117_free",
    "Mrc.Props.C117_queue_told",
    "Mrc.Props.C117_queue_pose"
   ],
   "note": "C117_still, C117_boot, C117_answered: any robot and arithmetic; the others the kit over exact arithmetic; C117_queue_*: total correctness with the host of C106; C117_demo: a run that meets all hypotheses. Simple instructions whose last command is the question (C99)"
  },
  {
   "property": "C118",
   "status": "proved",
   "theorems": [
    "Mrc.Props.C118_asif",
    "Mrc.Props.C118_all"
   ],
   "note": "the history without the questions receives the other bytes when they are read (their times of arrival are not kept); the input buffer may differ after the end of a line, where it has no meaning"
  },
  {
   "property": "C119",
   "status": "proved",
   "theorems": [
    "Mrc.Props.C119_told",
    "Mrc.Props.C119_pose",
    "Mrc.Props.C119_line",
    "Mrc.Props.C119_tool",
    "Mrc.Props.C119_queue",
    "Mrc.Props.C119_line_queue",
    "Mrc.Props.C119_turns",
    "Mrc.Props.C119_line_turns"
   ],
   "note": "the kit over exact arithmetic, interrupts not inside the command of a servo; *_queue, *_turns: total correctness with the hosts of C106 and C112; C119_demo, C119_line_demo: runs that meet all hypotheses"
  },
  {
   "property": "C12",
   "status": "proved",
   "theorems": [
    "Mrc.Props.C12_report",
    "Mrc.Props.C12_accepts",
    "Mrc.Props.C12_refuses"
   ],
   "note": ""
  },
  {
   "property": "C120",
   "status": "proved",
   "theorems": [
    "Mrc.Props.C120_smooth"
   ],
   "note": "the kit over exact arithmetic, interrupts not inside the command of a servo; any order of immediate and queued instructions. C119_demo: a run that meets all hypotheses"
  },
  {
   "property": "C121",
   "status": "proved",
   "theorems": [
    "Mrc.Props.C121_told",
    "Mrc.Props.C121_pose",
    "Mrc.Props.C121_queue",
    "Mrc.Props.C121_turns"
   ],
   "note": "the kit over exact arithmetic, interrupts not inside the command of a servo; C121_queue, C121_turns: total correctness with the hosts of C106 and C112; C121_demo: a run that meets all hypotheses. A servo told to turn by exactly nothing is given 0.1 radians per second by the code, and does not move"
  },
  {
   "property": "C122",
   "status": "proved",
   "theorems": [
    "Mrc.Props.C122_trace",
    "Mrc.Props.C122_line",
    "Mrc.Props.C122_time",
    "Mrc.Props.C122_queue",
    "Mrc.Props.C122_turns"
   ],
   "note": "C122_trace: the commands, any arithmetic; C122_line, C122_time: the kit over exact arithmetic, interrupts not inside the command of a servo; C122_queue, C122_turns: total correctness with the hosts of C106 and C112; C122_demo: a run that meets all hypotheses. Only the wrist is guaranteed to be at the points of the way (C88), so the time of the first part is only bounded if the tool is too; the speed between two points is bounded per servo"
  },
  {
   "property": "C123",
   "status": "proved",
   "theorems": [
    "Mrc.Props.C123_angles",
    "Mrc.Props.C123_poses",
    "Mrc.Props.C123_lines",
    "Mrc.Props.C123_told",
    "Mrc.Props.C123_pose",
    "Mrc.Props.C123_line",
    "Mrc.Props.C123_queue",
    "Mrc.Props.C123_queue_angles",
    "Mrc.Props.C123_queue_pose",
    "Mrc.Props.C123_queue_line"
   ],
   "note": "C123_angles/poses/lines: any arithmetic, any configuration, every history; C123_told/pose/line: the kit over exact arithmetic; C123_queue\u2026: total correctness for a counting host; C123_demo satisfies all hypotheses"
  },
  {
   "property": "C124",
   "status": "proved",
   "theorems": [
    "Mrc.Props.C124_last",
    "Mrc.Props.C124_read",
    "Mrc.Props.C124_told",
    "Mrc.Props.C124_pose",
    "Mrc.Props.C124_free",
    "Mrc.Props.C124_queue_told",
    "Mrc.Props.C124_queue_pose"
   ],
   "note": "C124_last: any arithmetic and printer; the rest: the kit over exact arithmetic, every printer to two decimals (TwoDecimals; print2 is one); C124_demo satisfies all hypotheses"
  },
  {
   "property": "C125",
   "status": "proved",
   "theorems": [
    "Mrc.Props.C125_true",
    "Mrc.Props.C125_read",
    "Mrc.Props.C125_queue"
   ],
   "note": "C125_true: any arithmetic; the rest: the kit over exact arithmetic, every printer to two decimals; C125_demo satisfies all hypotheses"
  },
  {
   "property": "C126",
   "status": "proved",
   "theorems": [
    "Mrc.Props.C126_exact",
    "Mrc.Props.C126_only",
    "Mrc.Props.C126_before",
    "Mrc.Props.C126_done",
    "Mrc.Props.C126_stays",
    "Mrc.Props.C126_queue",
    "Mrc.Props.C126_queue_rest"
   ],
   "note": "all but the queue theorems: any arithmetic and pin map; the queue: the kit over exact arithmetic; C126_demo satisfies all hypotheses"
  },
  {
   "property": "C127",
   "status": "proved",
   "theorems": [
    "Mrc.Props.C127_waits",
    "Mrc.Props.C127_time"
   ],
   "note": "any arithmetic, any pin map of ten; C128_demo satisfies the hypotheses"
  },
  {
   "property": "C128",
   "status": "proved",
   "theorems": [
    "Mrc.Props.C128_ready",
    "Mrc.Props.C128_executed",
    "Mrc.Props.C128_reported"
   ],
   "note": "C128_ready: any arithmetic; the others: the kit over exact arithmetic; C128_demo satisfies all hypotheses"
  },
  {
   "property": "C129",
   "status": "proved",
   "theorems": [
    "Mrc.Props.C129_goes",
    "Mrc.Props.C129_read",
    "Mrc.Props.C129_queue"
   ],
   "note": "any configuration with such servos, exact arithmetic; C129_queue: the kit; C129_demo satisfies all hypotheses"
  },
  {
   "property": "C13",
   "status": "proved",
   "theorems": [
    "Mrc.Props.C13_busy",
    "Mrc.Props.C13_takes",
    "Mrc.Props.C13_one_per_pass",
    "Mrc.Props.C13_mode"
   ],
   "note": ""
  },
  {
   "property": "C130",
   "status": "proved",
   "theorems": [
    "Mrc.Props.C130_pass",
    "Mrc.Props.C130_boot",
    "Mrc.Props.C130_passes",
    "Mrc.Props.C130_read",
    "Mrc.Props.C130_reaction"
   ],
   "note": "accesses of the model are counted (an EEPROM scan is one access); C130_endless shows the bound is reached in every endless history, C130_demo the kit"
  },
  {
   "property": "C131",
   "status": "proved",
   "theorems": [
    "Mrc.Props.C131_next",
    "Mrc.Props.C131_only",
    "Mrc.Props.C131_pass",
    "Mrc.Props.C131_queue",
    "Mrc.Props.C131_rest",
    "Mrc.Props.C131_timing"
   ],
   "note": "histories without immediate instructions; liveness for the kit in exact arithmetic, at most one N per instruction; C131_demo satisfies all hypotheses"
  },
  {
   "property": "C132",
   "status": "proved",
   "theorems": [
    "Mrc.Props.C132_order",
    "Mrc.Props.C132_only",
    "Mrc.Props.C132_same",
    "Mrc.Props.C132_again",
    "Mrc.Props.C132_kit",
    "Mrc.Props.C132_reported",
    "Mrc.Props.C132_moves",
    "Mrc.Props.C132_poses",
    "Mrc.Props.C132_lines"
   ],
   "note": "order, conversation and pins for every configuration; that it never stops for the kit in exact arithmetic, programs without I and D; C132_demo satisfies all hypotheses"
  },
  {
   "property": "C133",
   "status": "proved",
   "theorems": [
    "Mrc.Props.C133_rules",
    "Mrc.Props.C133_pass",
    "Mrc.Props.C133_reports",
    "Mrc.Props.C133_answers"
   ],
   "note": "every history whose instructions name axes and methods by one digit, immediate ones included; C133_demo is a concrete history with an interruption"
  },
  {
   "property": "C134",
   "status": "proved",
   "theorems": [
    "Mrc.Props.C134_watched",
    "Mrc.Props.C134_kit",
    "Mrc.Props.C134_waiting",
    "Mrc.Props.C134_single"
   ],
   "note": "every robot and arithmetic, given that servos settle and waits end; proved of the kit in exact arithmetic (with and without waits) and in binary32 (joint angles); instructions with at most one N; C134_demo, C134_single_demo satisfy all hypotheses"
  },
  {
   "property": "C135",
   "status": "proved",
   "theorems": [
    "Mrc.Props.C135_stale",
    "Mrc.Props.C135_never"
   ],
   "note": "every history whose instructions name axes and methods by one digit; C135_demo is a concrete history"
  },
  {
   "property": "C136",
   "status": "proved",
   "theorems": [
    "Mrc.Props.C136_angles",
    "Mrc.Props.C136_pose",
    "Mrc.Props.C136_line",
    "Mrc.Props.C136_timing",
    "Mrc.Props.C136_rounded"
   ],
   "note": "the kit over the exact numbers; the hypotheses on hosts are those of C131; C136_demo: two histories with arbitrary clocks and inputs; C136_rounded: joint moves in binary32, C136_demo_rounded"
  },
  {
   "property": "C137",
   "status": "proved",
   "theorems": [
    "Mrc.Props.C137_ends",
    "Mrc.Props.C137_waiting",
    "Mrc.Props.C137_rounded",
    "Mrc.Props.C137_same"
   ],
   "note": "C137_ends assumes the liveness of servos and waits, proved for the kit in C137_waiting and C137_rounded; C137_demo: two histories in two arithmetics"
  },
  {
   "property": "C138",
   "status": "proved",
   "theorems": [
    "Mrc.Props.C138_angles",
    "Mrc.Props.C138_pose",
    "Mrc.Props.C138_line",
    "Mrc.Props.C138_pauses",
    "Mrc.Props.C138_rounded"
   ],
   "note": "C138_demo and C138_demo_rounded satisfy all hypotheses"
  },
  {
   "property": "C139",
   "status": "proved",
   "theorems": [
    "Mrc.Props.C139_everything",
    "Mrc.Props.C139_angles",
    "Mrc.Props.C139_same"
   ],
   "note": "for the kit over exact numbers, M0 in force for the last place; C139_demo satisfies all hypotheses"
  },
  {
   "property": "C14",
   "status": "proved",
   "theorems": [
    "Mrc.Props.C14_round_trip"
   ],
   "note": ""
  },
  {
   "property": "C140",
   "status": "proved",
   "theorems": [
    "Mrc.Props.C140_angles",
    "Mrc.Props.C140_pose",
    "Mrc.Props.C140_same",
    "Mrc.Props.C140_rounded"
   ],
   "note": "for the kit; C140_demo satisfies all hypotheses"
  },
  {
   "property": "C15",
   "status": "partial",
   "theorems": [
    "Mrc.Props.C15_bounds_false",
    "Mrc.Props.C15_bounds_partial"
   ],
   "note": "the terminator of an exactly filling message is written to address 2048; everything else proved"
  },
  {
   "property": "C16",
   "status": "partial",
   "theorems": [
    "Mrc.Props.C16_crash_keeps_old",
    "Mrc.Props.C16_crash_partial",
    "Mrc.Props.C16_crash_atomic_false"
   ],
   "note": "old messages survive every crash point; atomicity is false"
  },
  {
   "property": "C17",
   "status": "partial",
   "theorems": [
    "Mrc.Props.C17_replay_partial",
    "Mrc.Props.C17_replay_false"
   ],
   "note": "message 0 is never replayed; the others cyclically in order"
  },
  {
   "property": "C18",
   "status": "partial",
   "theorems": [
    "Mrc.Props.C18_power_cycle_partial",
    "Mrc.Props.C18_single_false"
   ],
   "note": "mode after power-up and contents proved; message 0 is not replayed"
  },
  {
   "property": "C19",
   "status": "partial",
   "theorems": [
    "Mrc.Props.C19_scan_terminates",
    "Mrc.Props.C19_overrun_partial",
    "Mrc.Props.C19_overrun_false"
   ],
   "note": "scan terminates for all contents; buffer overrun for foreign contents"
  },
  {
   "property": "C20",
   "status": "proved",
   "theorems": [
    "Mrc.Props.C20_commands",
    "Mrc.Props.C20_every",
    "Mrc.Props.C20_method",
    "Mrc.Props.C20_velocity",
    "Mrc.Props.C20_number",
    "Mrc.Props.C28_position",
    "Mrc.Props.C28_orientation",
    "Mrc.Props.C28_axis",
    "Mrc.Props.C28_additional_axis",
    "Mrc.Props.C31_output",
    "Mrc.Props.C34_command"
   ],
   "note": "whole-instruction decomposition plus the effect of each kind of command"
  },
  {
   "property": "C21",
   "status": "proved",
   "theorems": [
    "Mrc.Props.C21_no_motion",
    "Mrc.Props.C21_closed",
    "Mrc.Props.C21_open"
   ],
   "note": ""
  },
  {
   "property": "C22",
   "status": "proved",
   "theorems": [
    "Mrc.Props.C22_comment",
    "Mrc.Props.C22_before",
    "Mrc.Props.C22_unknown"
   ],
   "note": ""
  },
  {
   "property": "C23",
   "status": "proved",
   "theorems": [
    "Mrc.Props.C23_read_command",
    "Mrc.Props.C23_reads",
    "Mrc.Props.C23_numbered_reads"
   ],
   "note": ""
  },
  {
   "property": "C24",
   "status": "proved",
   "theorems": [
    "Mrc.Props.C24_balance",
    "Mrc.Props.C24_idle"
   ],
   "note": ""
  },
  {
   "property": "C25",
   "status": "partial",
   "theorems": [
    "Mrc.Props.C25_complete_partial",
    "Mrc.Props.C25_complete_false"
   ],
   "note": "proved for instructions that contain a command after N, from any source; false in general: an instruction ending in its N command sends N0 but never N1"
  },
  {
   "property": "C26",
   "status": "partial",
   "theorems": [
    "Mrc.Props.C26_token_false",
    "Mrc.Props.C26_long_false",
    "Mrc.Props.C26_axis_false",
    "Mrc.Props.C26_pin_false",
    "Mrc.Props.C26_memory_partial",
    "Mrc.Props.C26_safe",
    "Mrc.Props.C26_unsafe",
    "Mrc.Props.C26_exact"
   ],
   "note": "false of the code; C26_exact: for every byte string, exactly which texts are read without leaving the tables (C26_safe), and that no environment lets the parser through any other (C26_unsafe)"
  },
  {
   "property": "C27",
   "status": "proved",
   "theorems": [
    "Mrc.Props.C27_decimal"
   ],
   "note": ""
  },
  {
   "property": "C28",
   "status": "proved",
   "theorems": [
    "Mrc.Props.C28_position",
    "Mrc.Props.C28_orientation",
    "Mrc.Props.C28_axis",
    "Mrc.Props.C28_additional_axis",
    "Mrc.Props.C28_axis_back",
    "Mrc.Props.C28_additional_back",
    "Mrc.Props.C28_pose_back",
    "Mrc.Props.C28_velocity_back",
    "Mrc.Props.C28_method_back"
   ],
   "note": "write side for any arithmetic; read-back over exact arithmetic, when the arm stands where it was told to"
  },
  {
   "property": "C29",
   "status": "partial",
   "theorems": [
    "Mrc.Props.C29_separator_false",
    "Mrc.Props.C29_separator_partial"
   ],
   "note": "false of the code before a command letter"
  },
  {
   "property": "C30",
   "status": "proved",
   "theorems": [
    "Mrc.Props.C30_release",
    "Mrc.Props.C30_blocks"
   ],
   "note": ""
  },
  {
   "property": "C31",
   "status": "proved",
   "theorems": [
    "Mrc.Props.C31_output"
   ],
   "note": ""
  },
  {
   "property": "C32",
   "status": "partial",
   "theorems": [
    "Mrc.Props.C32_capacity_false",
    "Mrc.Props.C32_capacity_partial"
   ],
   "note": "the 11th pending condition is written out of bounds"
  },
  {
   "property": "C33",
   "status": "proved",
   "theorems": [
    "Mrc.Props.C33_target_state"
   ],
   "note": ""
  },
  {
   "property": "C34",
   "status": "proved",
   "theorems": [
    "Mrc.Props.C34_wait",
    "Mrc.Props.C34_blocks",
    "Mrc.Props.C34_command"
   ],
   "note": ""
  },
  {
   "property": "C35",
   "status": "partial",
   "theorems": [
    "Mrc.Props.C35_wrap_false",
    "Mrc.Props.C35_wrap_partial"
   ],
   "note": "false across the wrap"
  },
  {
   "property": "C36",
   "status": "partial",
   "theorems": [
    "Mrc.Props.C36_speed_partial",
    "Mrc.Props.C36_speed_nan_false",
    "Mrc.Props.C36_speed_small_max_false"
   ],
   "note": "proved for numeric velocities and maxima of at least 0.1; NaN passes, a smaller maximum is exceeded by the 0.1 floor"
  },
  {
   "property": "C37",
   "status": "proved",
   "theorems": [
    "Mrc.Props.C37_range",
    "Mrc.Props.C37_nan_false",
    "Mrc.Props.C37_rounded",
    "Mrc.Props.C37_exact_false"
   ],
   "note": "exact arithmetic: C37_range; with rounding (every float format, any libm): C37_rounded, with a slack of four rounding errors, necessary by C37_exact_false (binary32); C37_nan_false: the exclusion of NaN velocities is necessary"
  },
  {
   "property": "C38",
   "status": "proved",
   "theorems": [
    "Mrc.Props.C38_position",
    "Mrc.Props.C38_stays",
    "Mrc.Props.C38_arrives",
    "Mrc.Props.C38_monotone",
    "Mrc.Props.C38_wrap_false",
    "Mrc.Props.C38_rounded",
    "Mrc.Props.C38_accuracy"
   ],
   "note": "exact arithmetic, and IEEE binary32 (C38_rounded: exactly at the target one tick after the exact time at the latest; C38_accuracy); C38_wrap_false: the provision on the time counter is necessary"
  },
  {
   "property": "C39",
   "status": "partial",
   "theorems": [
    "Mrc.Props.C39_tick_partial",
    "Mrc.Props.C39_tick_false"
   ],
   "note": "proved while the speed is unchanged since the target was set; a speed change in between makes the position jump"
  },
  {
   "property": "C40",
   "status": "proved",
   "theorems": [
    "Mrc.Props.C40_pulse_range",
    "Mrc.Props.C40_pulse_ends",
    "Mrc.Props.C40_pulse_monotone",
    "Mrc.Props.C40_rounded"
   ],
   "note": "exact arithmetic, and IEEE binary32 (C40_rounded, to one microsecond)"
  },
  {
   "property": "C41",
   "status": "proved",
   "theorems": [
    "Mrc.Props.C41_limits",
    "Mrc.Props.C41_all_or_none",
    "Mrc.Props.C41_in_range"
   ],
   "note": "limits in the sense of the comparisons of the code: a NaN is neither below nor above a limit; C41_in_range for numeric angles"
  },
  {
   "property": "C42",
   "status": "partial",
   "theorems": [
    "Mrc.Props.C42_p2p",
    "Mrc.Props.C42_linear",
    "Mrc.Props.C42_linear_first",
    "Mrc.Props.C42_unreachable_false"
   ],
   "note": "proved for angle targets and linear way points; false for a point-to-point move to an unreachable pose while stale target angles differ"
  },
  {
   "property": "C43",
   "status": "proved",
   "theorems": [
    "Mrc.Props.C43_nothing_starts",
    "Mrc.Props.C43_retained",
    "Mrc.Props.C43_together"
   ],
   "note": ""
  },
  {
   "property": "C44",
   "status": "proved",
   "theorems": [
    "Mrc.Props.C44_mixed",
    "Mrc.Props.C44_flags"
   ],
   "note": ""
  },
  {
   "property": "C45",
   "status": "proved",
   "theorems": [
    "Mrc.Props.C45_together",
    "Mrc.Props.C48_p2p"
   ],
   "note": ""
  },
  {
   "property": "C46",
   "status": "proved",
   "theorems": [
    "Mrc.Props.C46_line",
    "Mrc.Props.C47_segments"
   ],
   "note": ""
  },
  {
   "property": "C47",
   "status": "proved",
   "theorems": [
    "Mrc.Props.C47_segments",
    "Mrc.Props.C47_at_most",
    "Mrc.Props.C47_ends"
   ],
   "note": ""
  },
  {
   "property": "C48",
   "status": "proved",
   "theorems": [
    "Mrc.Props.C48_p2p",
    "Mrc.Props.C48_linear",
    "Mrc.Props.C48_linear_first"
   ],
   "note": ""
  },
  {
   "property": "C49",
   "status": "proved",
   "theorems": [
    "Mrc.Props.C49_set_get"
   ],
   "note": ""
  },
  {
   "property": "C50",
   "status": "partial",
   "theorems": [
    "Mrc.Props.C50_retained_false",
    "Mrc.Props.C42_linear",
    "Mrc.Props.C42_linear_first"
   ],
   "note": "false of the code: the unreachable target pose is retained; only linear way points reset the target"
  },
  {
   "property": "C51",
   "status": "proved",
   "theorems": [
    "Mrc.Props.C51_set_moving",
    "Mrc.Props.C51_idle_means_arrived",
    "Mrc.Props.C51_prepare"
   ],
   "note": ""
  },
  {
   "property": "C52",
   "status": "proved",
   "theorems": [
    "Mrc.Props.C52_readings"
   ],
   "note": ""
  },
  {
   "property": "C53",
   "status": "proved",
   "theorems": [
    "Mrc.Props.C53_joints",
    "Mrc.Props.C53_forward"
   ],
   "note": "over exact real arithmetic"
  },
  {
   "property": "C54",
   "status": "proved",
   "theorems": [
    "Mrc.Props.C54_links",
    "Mrc.Props.C54_tool"
   ],
   "note": "over exact real arithmetic"
  },
  {
   "property": "C55",
   "status": "proved",
   "theorems": [
    "Mrc.Props.C55_orientation",
    "Mrc.Props.C53_forward"
   ],
   "note": "over exact real arithmetic"
  },
  {
   "property": "C56",
   "status": "proved",
   "theorems": [
    "Mrc.Props.C56_inverse",
    "Mrc.Props.C56_round_trip",
    "Mrc.Props.C56_singular_false"
   ],
   "note": "over exact real arithmetic; the last theorem shows that the exclusion of the straight wrist is necessary"
  },
  {
   "property": "C57",
   "status": "proved",
   "theorems": [
    "Mrc.Props.C57_range"
   ],
   "note": "over exact real arithmetic"
  },
  {
   "property": "C58",
   "status": "proved",
   "theorems": [
    "Mrc.Props.C58_kit"
   ],
   "note": "over exact real arithmetic"
  },
  {
   "property": "C59",
   "status": "proved",
   "theorems": [
    "Mrc.Props.C59_robotD",
    "Mrc.Props.C59_back"
   ],
   "note": "over exact real arithmetic; even for -25\u00b0..90\u00b0"
  },
  {
   "property": "C60",
   "status": "proved",
   "theorems": [
    "Mrc.Props.C60_sequencing"
   ],
   "note": ""
  },
  {
   "property": "C61",
   "status": "proved",
   "theorems": [
    "Mrc.Props.C61_head",
    "Mrc.Props.C61_order",
    "Mrc.Props.C61_subsequence"
   ],
   "note": ""
  },
  {
   "property": "C62",
   "status": "proved",
   "theorems": [
    "Mrc.Props.C62_range",
    "Mrc.Props.C62_constants",
    "Mrc.Props.C62_pulse",
    "Mrc.Props.C62_kit",
    "Mrc.Props.C62_nan",
    "Mrc.Props.C62_rounded",
    "Mrc.Props.C62_kit_rounded"
   ],
   "note": "for every history of the whole system in which no NaN was stored into an arm servo: over exact arithmetic (C62_range, C62_pulse, C62_kit), over every rounded format with any libm (C62_rounded), for the kit in IEEE binary32 (C62_kit_rounded); C62_nan shows why the exclusion of NaN is needed"
  },
  {
   "property": "C63",
   "status": "partial",
   "theorems": [
    "Mrc.Props.C63_frames_partial",
    "Mrc.Props.C63_frames_false"
   ],
   "note": "every message is a well-formed frame; false for the whole output: move durations and errors are printed outside of frames"
  },
  {
   "property": "C64",
   "status": "proved",
   "theorems": [
    "Mrc.Props.C64_at_most_30",
    "Mrc.Props.C64_fifo"
   ],
   "note": ""
  },
  {
   "property": "C65",
   "status": "proved",
   "theorems": [
    "Mrc.Props.C65_immediate"
   ],
   "note": ""
  },
  {
   "property": "C66",
   "status": "proved",
   "theorems": [
    "Mrc.Props.C66_stop"
   ],
   "note": ""
  },
  {
   "property": "C67",
   "status": "partial",
   "theorems": [
    "Mrc.Props.C67_defined",
    "Mrc.Props.C67_circular",
    "Mrc.Props.C67_linear",
    "Mrc.Props.C67_rounded_steps_false",
    "Mrc.Props.C67_rounded_false"
   ],
   "note": "no undefined behaviour for P2P (C67_defined), nor for LINEAR in exact arithmetic (C67_linear); false for CIRCULAR, which reads uninitialised angles, and for LINEAR in IEEE binary32, where acos of a number rounded above 1 gives NaN, which is converted to int (C67_rounded_false)"
  },
  {
   "property": "C68",
   "status": "proved",
   "theorems": [
    "Mrc.Props.C68_accepted"
   ],
   "note": "over exact real arithmetic"
  },
  {
   "property": "C69",
   "status": "proved",
   "theorems": [
    "Mrc.Props.C69_same",
    "Mrc.Props.C69_kit"
   ],
   "note": "over exact real arithmetic; C69_kit is the exact equality for the kit"
  },
  {
   "property": "C70",
   "status": "partial",
   "theorems": [
    "Mrc.Props.C70_range_partial",
    "Mrc.Props.C70_unchecked_false",
    "Mrc.Props.C70_pulse_false"
   ],
   "note": "the firmware does not check the range of R6, R7 (witness); proved for all histories in which only angles within the range are commanded"
  },
  {
   "property": "C71",
   "status": "proved",
   "theorems": [
    "Mrc.Props.C71_looks",
    "Mrc.Props.C71_same_pass"
   ],
   "note": ""
  },
  {
   "property": "C72",
   "status": "proved",
   "theorems": [
    "Mrc.Props.C72_picture"
   ],
   "note": "over exact real arithmetic; drawing commands, not pixels"
  },
  {
   "property": "C73",
   "status": "proved",
   "theorems": [
    "Mrc.Props.C73_bars",
    "Mrc.Props.C73_inside"
   ],
   "note": "over exact real arithmetic; drawing commands, not pixels"
  },
  {
   "property": "C74",
   "status": "partial",
   "theorems": [
    "Mrc.Props.C74_marks_partial",
    "Mrc.Props.C74_shared_pin_false"
   ],
   "note": "per pin; on the kit inputs 4 and 6-9 share a pin and are shown together"
  },
  {
   "property": "C75",
   "status": "partial",
   "theorems": [
    "Mrc.Props.C75_not_awaited_false",
    "Mrc.Props.C60_sequencing",
    "Mrc.Props.C24_idle"
   ],
   "note": "false of the code: only the arm, inputs and waits are awaited (C60, C24)"
  },
  {
   "property": "C76",
   "status": "partial",
   "theorems": [
    "Mrc.Props.C76_arrived_partial",
    "Mrc.Props.C76_immediate_false"
   ],
   "note": "proved for all histories in which immediate (E) instructions that name a place for the arm are only given while it is at rest (others at any time); false otherwise (witness: a refused immediate instruction ends the supervision of a move under way)"
  },
  {
   "property": "C77",
   "status": "proved",
   "theorems": [
    "Mrc.Props.C77_rest",
    "Mrc.Props.C77_exact",
    "Mrc.Props.C77_kit",
    "Mrc.Props.C77_rounded",
    "Mrc.Props.C77_kit_rounded"
   ],
   "note": "C77_rest: any arithmetic in which servos left alone arrive; C77_exact: exact arithmetic, any robot, positive speeds bounded away from 0, no NaN; C77_kit: the kit; C77_rounded: any rounded format, C77_kit_rounded: the kit in IEEE binary32"
  },
  {
   "property": "C78",
   "status": "proved",
   "theorems": [
    "Mrc.Props.C78_started"
   ],
   "note": "endless histories in which the pass conditions recur (fairness) and servos left alone would arrive"
  },
  {
   "property": "C79",
   "status": "proved",
   "theorems": [
    "Mrc.Props.C79_drained",
    "Mrc.Props.C79_kit_rounded"
   ],
   "note": "C79_kit_rounded: the kit in IEEE binary32"
  },
  {
   "property": "C80",
   "status": "proved",
   "theorems": [
    "Mrc.Props.C80_reported",
    "Mrc.Props.C80_kit_rounded"
   ],
   "note": "for instructions containing one number, in front of the last token (C25); C80_kit_rounded: the kit in IEEE binary32"
  },
  {
   "property": "C81",
   "status": "proved",
   "theorems": [
    "Mrc.Props.C81_any",
    "Mrc.Props.C81_kit"
   ],
   "note": "over exact arithmetic with NaN and infinities; C81_any: any arm geometry, couplings that give numbers for numbers; C81_kit: the kit. That the conditions are needed: C26_*_false, C09, C32, C35, C37_nan_false"
  },
  {
   "property": "C82",
   "status": "proved",
   "theorems": [
    "Mrc.Props.C82_kit"
   ],
   "note": "over exact arithmetic"
  },
  {
   "property": "C83",
   "status": "proved",
   "theorems": [
    "Mrc.Props.C83_kit"
   ],
   "note": "over exact arithmetic; provided no positive speed below 1/1000 rad/s is commanded"
  },
  {
   "property": "C84",
   "status": "proved",
   "theorems": [
    "Mrc.Props.C84_angles",
    "Mrc.Props.C84_kit"
   ],
   "note": "C84_angles for every number type; C84_kit in numbers for the robot kit with a careful host, all six angles given"
  },
  {
   "property": "C85",
   "status": "proved",
   "theorems": [
    "Mrc.Props.C85_pose",
    "Mrc.Props.C85_kit"
   ],
   "note": "nothing is claimed for poses out of reach (the firmware then moves to the old angles, C42)"
  },
  {
   "property": "C86",
   "status": "proved",
   "theorems": [
    "Mrc.Props.C86_line",
    "Mrc.Props.C86_line_angles",
    "Mrc.Props.C86_kit"
   ],
   "note": "for every number type; near the wrist singularity axes 3 and 5 keep the servo readings"
  },
  {
   "property": "C87",
   "status": "proved",
   "theorems": [
    "Mrc.Props.C87_course",
    "Mrc.Props.C87_kit"
   ],
   "note": ""
  },
  {
   "property": "C88",
   "status": "proved",
   "theorems": [
    "Mrc.Props.C88_kit",
    "Mrc.Props.C88_queue",
    "Mrc.Props.C88_pose",
    "Mrc.Props.C88_line"
   ],
   "note": "over exact arithmetic"
  },
  {
   "property": "C89",
   "status": "proved",
   "theorems": [
    "Mrc.Props.C89_nothing_lost",
    "Mrc.Props.C89_started"
   ],
   "note": ""
  },
  {
   "property": "C90",
   "status": "proved",
   "theorems": [
    "Mrc.Props.C90_executed",
    "Mrc.Props.C90_kit",
    "Mrc.Props.C90_kit_rounded"
   ],
   "note": "C90_kit_rounded: the kit in IEEE binary32; C90_executed: any arithmetic in which servos left alone arrive; C90_kit: the kit in exact arithmetic with a careful host"
  },
  {
   "property": "C91",
   "status": "proved",
   "theorems": [
    "Mrc.Props.C91_at_once",
    "Mrc.Props.C91_all",
    "Mrc.Props.C91_prefix"
   ],
   "note": ""
  },
  {
   "property": "C92",
   "status": "proved",
   "theorems": [
    "Mrc.Props.C92_program",
    "Mrc.Props.C92_cut"
   ],
   "note": ""
  },
  {
   "property": "C93",
   "status": "proved",
   "theorems": [
    "Mrc.Props.C93_replay",
    "Mrc.Props.C93_since"
   ],
   "note": "that the first stored instruction is not replayed is C17"
  },
  {
   "property": "C94",
   "status": "proved",
   "theorems": [
    "Mrc.Props.C94_lives"
   ],
   "note": ""
  },
  {
   "property": "C95",
   "status": "proved",
   "theorems": [
    "Mrc.Props.C95_next",
    "Mrc.Props.C95_again",
    "Mrc.Props.C95_kit",
    "Mrc.Props.C95_kit_rounded"
   ],
   "note": "C95_kit_rounded: the kit in IEEE binary32; C95_next, C95_again: any arithmetic in which servos left alone arrive; C95_kit: the kit in exact arithmetic with a careful host"
  },
  {
   "property": "C96",
   "status": "proved",
   "theorems": [
    "Mrc.Props.C96_storage",
    "Mrc.Props.C96_kit",
    "Mrc.Props.C96_interrupted_false"
   ],
   "note": "over exact arithmetic; C96_interrupted_false: why storing must not be interrupted"
  },
  {
   "property": "C97",
   "status": "proved",
   "theorems": [
    "Mrc.Props.C97_text",
    "Mrc.Props.C97_read"
   ],
   "note": "how a float is printed is a parameter, assumed to be decimal text of its value"
  },
  {
   "property": "C98",
   "status": "proved",
   "theorems": [
    "Mrc.Props.C98_true",
    "Mrc.Props.C98_asked"
   ],
   "note": "C98_asked: instructions made of plain commands"
  },
  {
   "property": "C99",
   "status": "partial",
   "theorems": [
    "Mrc.Props.C99_answered_partial",
    "Mrc.Props.C99_answered_false"
   ],
   "note": "proved for instructions whose last command is the question; false otherwise: questions followed by another command are not answered"
  }
 ]
}