# DESIGN — formal model of glumb/mrc (robot arm firmware) in Lean 4

## 1. What is modelled, and how

| module (lean/Verif/Model) | code in /repo | how |
|---|---|---|
| `Num` | `float`/`double`, libm | law-free class `FloatOps F`; every model function is polymorphic in `F` |
| `XR` | IEEE special values | instance of `FloatOps`: real number or ±inf or NaN, exact real arithmetic, no rounding, no signed zero |
| `RX`, `Binary32` | IEEE arithmetic with rounding | instance of `FloatOps` for every rounding rule (monotone, symmetric, idempotent, bounded error, overflow to infinity) and arbitrary libm functions; `binary32` is the real `float`: 24 bits, ties to even, subnormals |
| `Text` | `atoi`, `atol`, `atof`, `String(int)` | functions over byte lists |
| `RingBuffer` | src/RingBuffer.cpp | record data/capacity/position/length, `unsigned` additions mod 2^32 where they can wrap |
| `Framer` | MRCPParser::parseChar | state machine byte -> events (`cmd payload`, `oob`) |
| `Eeprom` | src/EEPromStorage.cpp | memory `Nat → Byte`; append is a *list of single byte writes* so that every crash point exists |
| `Servo` | src/VarSpeedServo.cpp | record + `tick` (the ISR) + micro actions (`setStart`, `zeroElapsed`, `setTarget`, `setVel`) |
| `Kinematic` | src/Kinematic.cpp | literal transcription of forward, calculateCoordinates, inverse |
| `Prog` | the C++ execution | a program is a tree of atomic accesses to shared things (servo record, clock, pin, serial, EEPROM byte write, output); interrupts may happen between any two of them |
| `Robot` | src/RobotController.cpp | setters/getters and `process` as `Prog` |
| `IO` | src/IOLogic.cpp, src/WaitController.h | `Prog`s |
| `Mril` | src/MRILParser.cpp, src/AdditionalAxisController.h | `Prog`s over `Core` (controller, conditions, wait, command number) |
| `Mrcp` | src/MRCPParser.cpp, src/SerialIO.h, main.cpp `setup`, `loop`, `updateServos` | `Prog`s over the firmware state `FW`; small-step system `Sys.Step` |
| `Exec`, `Run` | – | traces of accesses (`Exec`, `Trace`), labelled histories with interrupts, clock, pins, arriving bytes (`Sys.Run`) |
| `Wire` | src/MRCPR.h, SerialIO::transmit, Serial.print | bytes on the serial line |
| `Config` | config/mp-robot-kit.h, config/mp-robot-d.h, config/servodata.h | literal constants and coupling functions |
| `ServoRun`, `ControllerRun` | – | histories of a single servo / of the controller API |
| `Display` | src/Display.h, main.cpp `renderDisplay` | the drawing commands issued |
| `StartScreen` | src/Display.h `displayRobotGeometry`, main.cpp:80 | the drawing commands issued at power-up |

Undefined behaviour is a distinct outcome (`Fault`): out-of-bounds write/read, use of an
uninitialised variable, float→int conversion out of range.  A `Prog` that reaches such a point
is `Prog.fault _`; nothing is assumed about what happens afterwards.

Ways of giving meaning to a `Prog`:
* `Prog.run`/`play` – executes without interference (deterministic), for examples;
* `Exec p tr q` – `p` performs the accesses `tr` with *arbitrary* answers of the environment and becomes `q`;
  this covers all interleavings with the timer interrupt, all clock values, pin levels, serial bytes, storage contents;
* `Sys.Run cfg w0 junk evs s` – complete histories from power-up of firmware + interrupt + environment.

The program logic (`Proof/Wp.lean`: monitors and weakest preconditions over `Exec`; `Proof/CoreWp.lean`: invariants of the
whole loop) is proved sound in Lean; nothing of it is trusted.

Specifications (`lean/Verif/Spec`) are independent of the model's helpers: lists of messages (Queue), split-based frame
decoding (Framing), the stored-program abstraction (Storage), instruction syntax and decimal values (Instruction), the wire
grammar (Wire), what an observer of the servo bus sees (Controller, Motion), rotation matrices (Kinematics).

## 2. Not modelled
* floating point rounding and overflow in the numeric theorems over `XR` (exact arithmetic with NaN/inf). With rounding (`RX`, binary32)
  are proved: C37, C38, C40, C62, C105, C107 and the `*_rounded` parts of C108-C110, C112, C113. Theorems polymorphic in `F` hold for any arithmetic, including the real one.
  Signed zeros never; `pow(x,2)` is `x*x`; every operation is rounded to the one format (Teensy builds use single precision constants);
* decimal formatting of floats in replies (`String(float)`, parameter `fl`), hex floats accepted by `strtod` (`hexFloat`, opaque);
* pixel drawing of Adafruit_GFX/SSD1306 (only the issued drawing commands are modelled), Logger text below LOG_LEVEL 1
  (compiled out), `lib/`, `examples/`, src/main_test.cpp, src/handleSerialCommand.h, src/fastRW.h (not part of the control path);
* Arduino core: `Servo.writeMicroseconds`, `digitalWrite`, `EEPROM.read/write` (Teensy semantics: reads
  beyond 2048 give 0, writes beyond are dropped), `millis` (32-bit counter) are the trusted environment;
* compiler reordering of the non-volatile stores in `setTargetRadAngle` and tearing of a single `float` load/store (32-bit
  aligned, atomic on the Cortex-M4); heap exhaustion.

## 3. Trusted base
Lean 4.33.0 kernel; the axioms `propext`, `Classical.choice`, `Quot.sound` only (every theorem; vcheck replays the modules and
reports no other axiom, no compiled-code trust); the transcription of the C++ text into the model (each definition cites
file and lines); the environment listed in §2.  No own axioms, no opaque constants other than fields of `FloatOps` instances.
Theorems are tested against wrong programs: seeded/LOG.jsonl.

Validation of the transcription (not a proof): `lean/Verif/Test/Conformance.lean` replays the unit tests shipped in
/repo/test/tests (kinematics, controller, ring buffer, I/O, MRIL, MRCP) on the model with IEEE doubles; the build fails if one
of them does not give the result the C++ test expects.

## 4. Plan per property
(Status of each is in MANIFEST.json. "false" means: the code violates it; we prove the negation with a
concrete witness and the strongest repaired statement as `_partial`.)

* C01, C02, C04 — refinement of the ring buffer to `List Byte` / `List (List Byte)`; induction over op lists.
* C03 — false: counterexample + exact description of what it does (`_partial`: message minus its last byte).
* C05–C08, C10 — refinement of the framer to an independent split-based specification; C08 false with ':' in comment.
* C09 — false at ≥79 payload bytes; partial: safe iff every frame piece ≤78.
* C11, C12, C65 — case analysis on `parseCommand` against a table-like specification.
* C13, C25, C60, C61 — trace properties of the loop, induction over loop passes with arbitrary environment answers.
* C14–C19 — refinement of the EEPROM bytes to a list of messages, write-by-write crash analysis, scan termination for all memories.
* C20–C23, C26–C29 — tokenizer correctness: parse (render cmds) = execute cmds; faults characterised.
  For arbitrary bytes (`Spec/Tokens.lean`: how any text falls into commands): C20_every (what it does), C26_exact (which texts are safe: exactly these).
* C24 — invariant over all histories of (parse | process).
* C30–C35 — IOLogic / WaitController; C32, C35 false with witnesses.
* C36–C40 — servo invariants on XR (real arithmetic), all interleavings of micro actions.
* C41–C51, C66 — RobotController: theorems for arbitrary kinematics and couplings; numeric ones on XR.
* C52, C58, C59 — couplings.
* C53–C57 — Kinematic over ℝ (via XR): matrices, Euler angles, inverse kinematics.
* C68, C69 — inverse(forward(A)) = A: uniqueness of the two link solution with elbow up, of the wrist with forearm angle below 90°.
* C62 — invariant over `Sys.Reach` combining C37 and C41.
* C63 — false (raw prints), partial: every message sent through MRCPR is a well formed frame.
* C64 — SerialIO loop.
* C70, C75 — additional axes: invariant over all histories as for C62 with the range as an assumption; false in general (no check, not awaited), witnesses.
* C71–C74 — display: drawing commands as a function of what is read; read-only; projection of the joint chain (C53); bars; marks.
* C76 — invariant over all histories with a monitor of the servos seen at their target; false for immediate instructions that name a place during a move (witness).
* C77–C80 — liveness over endless histories (`Spec/Liveness.lean`: a function from time to system states, steps of the same transition system, main loop and
  interrupt never starved). C77: every pass without a new instruction either leaves the controller idle, completes the move, advances to the next part of the
  move, or waits for a servo that was read as not arrived; well-founded on the number of remaining parts. C78–C80: a pass at rest with all conditions met hands
  over the next instruction and reports the previous one; combined with the safety theorems C11, C25, C60 for order. Existence of such histories: a fair
  scheduler (`Proof/Schedule.lean`) whose runs are proved endless, with kit runs checked up to a state that is proved to stay calm (`Props/LivenessDemo.lean`).
* C81–C83 — careful host (`Spec/Host.lean`: frames that fit, existing axes and pins, decimal numbers, speed ≠ 0). Invariant over all histories of the whole
  system, in two layers: `Proof/Host.lean` (any arithmetic; reduces "no fault and all numbers satisfy Q" to facts about one instruction and one pass) and
  `Proof/Careful.lean` (exact numbers: everything stays finite, conversions fit). C82 and C83 are C62 and C77 with the NaN hypothesis discharged.
* C84–C88 — the arm is where it was told (`Spec/Told.lean`). Ghost invariant over all histories that remembers the instruction being executed and what has happened since it
  began (`Proof/Told*.lean`): phases parsed → started → moving → at rest. C87: the same with the angles told so far (`Course`). The numeric versions over XR combine this
  with C62 (readings are numbers in range), C81 (careful host) and, for C88, with C78/C80 (liveness). Runs that meet the hypotheses: `Props/ToldDemo.lean`.
* C89–C90 — flow control (`Spec/Flow.lean`: what a host can count). Invariant: questions read + instructions started − free-space reports is 0 between passes and never
  negative when a byte is read (`Proof/Flow.lean`); with C61 this bounds the queue by the host's count. C90: every pass looks at the serial line, so all bytes sent
  are read; then C79.
* C91 — monitor of the immediate instructions read and not yet started (`Proof/Now.lean`).
* C92–C94 — the storage of the running system (`Spec/Program.lean`: the requests in a byte stream, the abstract storage of C14). Traces are cut at every byte read (`Proof/Mark.lean`); invariant:
  the storage is that of the frames read, plus at most the pending writes of one frame (`Proof/Store.lean`); the replay pointer is a function of the instructions started since the
  last W frame (`Proof/Replay.lean`).
* C101, C102 — the frame of C81 (`Proof/Host.lean`) with the set of admitted faults as a parameter, for texts that are safe in the sense of C26_exact
  (`Spec/Legible.lean`), in any arithmetic; C102: a monitor for the start of any other text, with `C26_unsafe`.
* C103 — as C101 with no admitted fault; invariant: the joint interpolation is selected or the arm has not been told anything yet (`Proof/Joints.lean`, on the
  commands of the text as in C26_exact).
* C104 — binary32 (`Model/Binary32.lean`). `Proof/Angles.lean`: controller with non-NaN targets and speed, poses never told, every move in one part: the moving time M/V*RAD_TO_DEG is no
  NaN because some axis has to move at least 0.0001 rad; dAngle/time is no NaN because time is neither NaN nor 0; parser: `atof` of a text without capitals is a number or an infinity. `Tame.run` for
  whole histories. Discharges the hypothesis "no NaN stored" of C62_kit_rounded and of `Kit32` (C77/4 ff.).
* C105 — binary32. C84/C87 hold for any arithmetic (`Moved`); `Proof/ToldAny.lean` turns `Moved` into readings of the servos for any arithmetic, `Props/Told32.lean` bounds the rounding: told degrees to stored radians 2e-6, coupling 2e-6, arrival test 4e-6, 'already there' test 1.04e-4. No NaN by C104. Liveness by C104_reported.
* C106 — `Proof/Waiting.lean`: invariant 'no condition, no waiting time' of the parser for instructions without the letters I and D (`Spec/Waiting.lean`); every stored and sent instruction is of that kind, so `Fair` follows from `ClockRuns` (`C106_ready`). `Props/Waiting.lean` puts it together with C90, C100, C88; `Props/LineKit.lean` has C86 and C88 for straight moves and poses of the kit in numbers (`Spec/Line.lean`: `Passed`, `KitLineMoved`). `Props/WaitingDemo.lean`: a complete run in exact arithmetic.
* C107 — C100 in binary32. `Proof/Brisk32.lean`: the stores into the servos come in blocks (`Blocks`) whose speed suits the way (`Suits`: every rounding of time = M/V*RAD_TO_DEG, of the servo's own time and of way/time is bounded; the time is at most 2·10^6 s or infinite, and then the speed 0 is replaced by 0.1 rad/s). `Props/Brisk32.lean`: between passes the servos are `Fit`; a servo whose way is below 1e-7 is there already, any other arrives before the millisecond counter overflows (`settles_timer` in `Props/LivenessR.lean`). `Props/Joint32.lean`: kit; with `told32_at` (C105) and `C106_ready` total correctness from assumptions about the host, the interrupts and the clock. `Props/Joint32Demo.lean`: a complete run in binary32.
* C108, C109 — `Spec/Rest.lean` (`Unbroken`, `CalmImmediates`, `ReportsAt`, `Untouched`, `ArmAt`). `Proof/Rest.lean`, for any arithmetic: given a property of a servo that the timer keeps and that every complete, uninterrupted command of the controller establishes, it holds of every arm servo at every report, and what was seen at its target (C76) still is. `Props/Rest.lean`: over the exact numbers that property is `Steady` (the position is the one the timer computes from start, speed and elapsed time, and the counter cannot overflow before arrival), under which the timer only comes nearer. `Proof/RestTold.lean` and C84/C85 then give the angles (C109). `Props/RestDemo.lean`: `C109_sent`, and a complete run meeting all hypotheses. `Props/Rest32.lean`: the same in binary32 (`Steady32`); rounding may carry a servo past its target by up to 9e-7, which still counts as arrived (`Steady32.stays`), and `timer32` excludes the overflow of the counter. The conditions are needed: `C100_race_false`, `C76_immediate_false`.
* C110 — `Spec/Told.lean` (`Calm`), `Spec/Rest.lean` (`CalmAt`, `CalmStarts`). The monitor of `Proof/Told.lean` keeps a flag "calm"; `Proof/Calm.lean`: calm implies that the controller is idle and waits for no number, hence no store into an arm servo and no report (any arithmetic). The theorems for queued instructions (C84-C86, C109) are corollaries.
* C111 — `Props/Progress.lean`, `Props/Notices.lean` (`note_own`): the notice monitor treats all sources alike; as C80.
* C112 — `Spec/Turns.lean` (`TakesTurns`: frames sent and N1 received are counted, nothing else). `Proof/Turns.lean`: (a) reports + (calm ? 0 : 1) ≤ instructions begun, by induction over the history; (b) between the end of a frame E... and the start of its instruction only inputs are read (C91), and at the end of the frame the instructions begun are at most those sent before; together with the host's rule: calm at the start. `Props/TurnsDemo.lean`: a scheduler with a reactive host, endless, meets all hypotheses.
* C113 — `Spec/Accuracy.lean` (`ToolAt`, `KitTakes`). `Proof/Lipschitz.lean`: rotations are isometries, two rotations about one axis by angles e apart differ by at most e on every vector, so the tool moves by at most e times the sum over the links of (number of joints before it) x (length): 102 e for the kit. `Props/RoundTrip.lean` (`kit_inverse`): in the ordinary posture the inverse kinematics returns exactly the angles that take the pose. With C110 and C112 or C106: the accuracy after the report. `Props/AccuracyDemo.lean`: a run that meets all hypotheses.
* C114 — `Spec/LineEnd.lean` (`LineEnd`, `KitFree`). From `LineMoved` (C110_line): the last stored targets are those of the last point taken (`Proof/LineEnd.lean`), the report means that they are reached (C100/C110), the start of the way is a reading taken before the arm is touched, and therefore at most as far from the servo's target as the servo was when the instruction began (`Nearer`). The next point is refused only by the inverse kinematics or by the ranges; `kit_inverse_takes` (C113) excludes both on a free way.
* C115 — `Spec/Area.lean` (`InArea`, `Down`, `AreaMove`, `AreaOnly`). `Proof/Area.lean` (`takes`): for every tool-down pose in the box, the triangle of upper arm and forearm is solved explicitly and the angles are shown to be within the kit's ranges, in the ordinary posture. The box is convex, so every straight way in it is free (C114_free). By strong induction over the instructions begun, the tool is in the box (up to 0.02) whenever one begins: at power-up it is at the home position, later it is where the previous move told it to be (C113, C114). `Props/AreaDemo.lean`: runs of both hosts that meet all hypotheses.
* C116 — `Model/StartScreen.lean`, `Props/StartScreen.lean`. Partial: for every geometry whose picture keeps clear of the left and upper edge (`Drawable`; arms built in one plane, as both configurations of /repo, are, `FlatArm.drawable`) the drawing is computed exactly (`spread`, `startSc`, `startLines`): defined, joined, to scale. That it can be seen is false: the heights are taken from the sideways coordinate, so for arms in one plane all lines lie in row 32, below the display (`C116_unseen_false`); for an upright arm the conversion is undefined (`C116_upright_false`).
* Asides and questions (`Spec/Aside.lean`, `Proof/Aside.lean`): C76, C84-C86, C109, C110, C112-C117 allow instructions that leave the arm alone (questions, waiting, inputs, outputs, additional axes) to
  begin at any time, even during a move: 'nothing else started in between' is `¬ Directs`. C77-C80, C88, C90, C95, C100, C106, C107, C111, C112 allow immediate instructions that only ask at any time: 'no other instruction
  begins' is `¬ Orders` (`Proof/Order.lean`: an immediate question leaves the whole core state of the controller as it was).
* C117 — `Spec/ReadBack.lean`, `Proof/Stays.lean` (an invariant of all histories: between a report and the next instruction that names a place the controller is idle), `Props/ReadBack.lean`. `C117_still`: no store into an arm servo; `C117_answered`: C99 in time; `C117_rest`: from C98_true (readings), C108 (the servos stay within 1e-6 of their targets) and the forward kinematics (C53, Lipschitz bound of C113); `C117_told`, `C117_pose`, `C117_free` with C110, C113, C114; `C117_queue_*` with C106. `Props/ReadBackDemo.lean`: a run.
* C118 — `Spec/Asking.lean` (`Merge`, `noted`, `OnlyAsksLine`, `Reaction`, `Without`). `Proof/Asking.lean`: a simulation between the history with the line and one without it. Everything but the serial line passes the framer on unseen
  (`Par`); framers after the same unfinished line treat the next byte alike; inside the line only the framer changes; its end leaves the state as it was (`Asd.parse_asks`, no transaction is open between instructions). A pass of the shorter
  history has bytes left over from its 30 and looks once more at the line, finding nothing; such looks are not counted. `Proof/AskingRun.lean`: the accesses so obtained, with interrupts, clock and pins in between as before, are a run of the
  whole system (`realize`): the bytes arrive just before they are read. `Props/Asking.lean`: one line (`C118_asif`), any number (`C118_all`), and a kit run with a question asked during a move.
* C119, C120 — `Spec/Way.lean` (`Amid`, `ArmAmid`, `ArmAbout`, `Visits`, `LineWay`, `kitServo`). `Proof/Way.lean`: at every interrupt every servo is in order (start, elapsed time, target and speed of one command). `Props/Way.lean`:
  from this, what one interrupt does to a servo (`kit_isr`), hence the bound on each step (`C120_smooth`) and, by induction over the time between the command and the report, that a servo stays between start and target and comes nearer
  (`C119_told`, `C119_pose`). `Props/WayLine.lean`: the same for every part of a straight move, put together along the line (`C119_line`, `C119_tool`). `Props/WayDemo.lean`: total correctness and demos.
* C121 — `Spec/Speed.lean` (`LastSpeed`, `interrupts`, `widest`, `share`, `KeepsSpeed`). `Proof/Speed.lean`: the speed named last is the one the controller plans with, and the commands of the move carry it
  (an invariant over all histories, any arithmetic). `Props/Speed.lean`: over the exact numbers, what the six commands store (`kit_sped`), hence the bound on every step (`kit_paced`), the least time (`kit_least`: a servo turns by at most
  its speed times the number of interrupts) and the most (`kit_most`: the servo's clock counts the interrupts since the command). `Props/SpeedDemo.lean`: total correctness and demo.
* C122 — `Spec/Pace.lean` (`toolOf`, `KeepsPace`). `Proof/Pace.lean`: `Pace` strengthens the line invariant `Lin` of C88 by the time the controller plans for each part (distance / parts / V) and the reason a line ends
  early; `Props/Pace.lean` splits the history at the way points (`pace_times`), each part is a joint move with a planned time, so the step and duration lemmas of C121 (`kit_early`, `kit_runs`) apply; that some servo has to
  turn noticeably in every part of 0.1 units follows from the Lipschitz bound of the forward kinematics (`near_wrist`). `C122_time` sums the parts. Not claimed: an upper bound of the duration of a straight move.
* C123 — `Spec/InForce.lean` (`InForce`: the method and the speed in force after a history, `SaysSpeed`). `Proof/InForce.lean`: the parser changes method and speed exactly as `chosenBy`/`spokenBy` say
  (`parse_has`), nothing else changes them (`inForce_state`, an invariant of every history tied to the commands begun so far), and the phase proofs of C84/C88/C121/C122 start from what is in force (`PhasesF`, `soundF`).
  `Props/InForceDemo.lean`: with only the queue in use the instructions started decide, and these are the first ones sent (`C123_queue`). Other texts after M than 0, 1 are not covered (`ClearM`).
* C124 — `Spec/ReadOff.lean` (`TwoDecimals`: what is assumed of Arduino's `String(float)`; `lastRead`, `TellsBack`). Every line ends with CR LF, so after it the reader is outside of frames (`skim_line`, `C124_last`);
  all numbers in answers of a careful host are finite (C81), reading inverts printing (C97), the values are those of C117. `Props/ReadOffDemo.lean`: a run from bytes sent to numbers read.
* C125 — `Spec/Settings.lean` (`settings`: the settings an instruction asks for, each at its point of the instruction; `ReadAs`). One monitor keeps what is in force (`gupd` of C123) and what was when the last
  instruction began (`set_inv`): `C125_true`, any arithmetic. `C125_read` reads it in the bytes received (C124), `C125_queue` adds C106 and `inForce_queue`; `C125_demo` satisfies all hypotheses.
* C126 — `Spec/Pins.lean` (`pinOps`: what was done to pins; `PinTold`/`PinsTold`: what a command/an instruction says; `Driven`, `Switches`, `Concerns`). A monitor keeps what was done since the last beginning and which instruction that was; while the commands are executed, done ++ still-to-do = what the text says (`Remains`), so at the next beginning it is all done (`C126_exact`), before it is a prefix (`C126_only`), before the first beginning nothing (`C126_before`), at the end of the pass all (`C126_done`, `C126_stays`). With C106: `C126_queue`, `C126_queue_rest`; `C126_demo`: N6O11O20 after a move.
* C127 — `Spec/Await.lean` (`Awaits`, `Delays`: what an instruction waits for; `SeenTogether`, `TimePassed`: that it happened). A monitor keeps the last instruction from queue or storage and what happened since; the invariant says either its conditions are still the pending ones and its waiting time the pending one (counted from a reading in the history), or they have been seen (`wait_inv`, over the CoreInv framework). `C127_waits` on traces, `C127_time` on worlds; `C128_demo` is a run that meets the hypotheses of both.
* C128 — `Spec/Oblige.lean` (`DueAt`: the time named by the last D, found in the history: every D reads the clock exactly once; `InputsThere`, `Obliging`). `due_sound`: the pending time is the one of `DueAt`; with C127's invariant the pending conditions are those of the last instruction, hence `C128_ready` : Obliging → Fair, for any arithmetic; then C100 gives `C128_executed`, `C128_reported` for the kit. `C128_demo`: a move, then N6I11D5. Note: D with (clock + ms) ≡ 2^32−1 never ends (C128's condition cannot be met), which is why `Obliging` asks for a clock *past* the time.
* C129 — `Spec/Gripper.lean` (`SendsAxis`, `MovesAxis`, `AxisFine`, `LeavesAxis`). `Proof/Does.lean` is the argument of C126 for any kind of accesses: the accesses of that kind between two instructions are exactly those the commands say, and an instruction's are complete at the end of a pass. With the kind “stores to servos 6 and 7” the target of the axis is the one sent last; every interrupt brings it nearer (`Nearing`, which survives speed changes although these make the position jump), and after at most 1000002 of them it is there. `C129_read` adds C98 (answers are read from the servos). `C129_queue` adds C106 for the kit; `C129_demo`: a move, then N6R61. That R6/R7 is not awaited and its range not checked is C70; exact arithmetic only.
* C130 — `Spec/Prompt.lean` (`Later`, `passes`, `reading`). `Proof/Costs.lean`: `Costs p Q b`, the program `p` makes at most `b` accesses, by recursion over the program of the pass, function by function (the costly ones: the condition list of IOLogic, at most ten entries, an invariant; 30 bytes per pass from the serial line; a received line, shorter than 79 bytes, executed or written to the EEPROM). `C130_read` follows the bytes waiting on the line through the passes (a pass reads 30 or empties the line), `C130_reaction` adds C91. `C130_endless`: in every endless history the accesses asked for are made, so the bound says something; `C130_demo`: the kit waiting for an input that never comes. Counted are accesses of the model: a scan of the EEPROM for a terminator counts as one, and the computation between two accesses is finite (a Lean function) but not counted; interrupts are not counted.
* C131 — `Spec/Talk.lean` (`Word`, `talk`: the conversation, a function of the instructions). `Proof/Talk.lean`: invariant “said so far, followed by the N1 that `commandNumber` stands for, is the conversation about what was begun so far” (`CoreInv`; between the completion check and the dispatcher the N1 is not outstanding); the execution of a command says `begins` and leaves response, number and kind as C98 has it. `C131_next`, `C131_only`, `C131_pass`: histories without immediate instructions (an immediate instruction replaces a pending number, C25). `C131_queue`, `C131_rest`: with C106; `C131_timing` compares two histories (with C126); `C131_demo`: a move and a question.
* C132 — `Spec/Unattended.lean` (`Unattended`, `rounds`). `C132_order` from C93 and the boot of `Dev` (nothing but the storage is served); `C132_only`, `C132_same` from C131 and C126 (here from power-up and from every source: `pins_begun`); the kit: C95/C100/C106 give infinitely many begins, hence the moment before the (k+1)-st (`C132_kit`), `C132_reported`, `C132_moves`, `C132_poses`, `C132_lines` from C80, C110, C113, C109. `C132_demo`: three stored instructions, an empty line.
* C133 — `Spec/Dialogue.lean` (`Heard`, `Turn`, `Dialogue.step`: the rules as an automaton over instructions begun and words said; `dialogue` runs it). `Proof/Dialogue.lean`: invariant “every reading of what was heard as turns is accepted, and the automaton then stands where `commandNumber` and the method stand” (`CoreInv`; the execution of a command leaves the rest of `begins` and the answer to be said). `C133_rules` (any moment), `C133_pass` (between passes), then from the automaton alone `C133_reports`, `C133_answers`. `C133_demo`: a concrete history (a question interrupts a move). Unlike C131 no restriction on immediate instructions; an instruction is read as commands by `text`, which is injective on well-formed commands.
* C134 — `Spec/Watch.lean`. From the rules of C133 alone (`Props/Watch.lean`): when only questions are given at once, N1 was said as often as orders were begun, but for the one due (`reports_exact`); answers and N0 likewise; what is due after the last order (`due_after`). Liveness: C106 (all queued instructions are begun, the last order is reported although questions interrupt it), C130 (all questions are begun). Then, between two passes, the state of the conversation is “nothing to be said, nothing due, nothing to begin”, in which the rules allow nothing more to be heard. `C134_watched` is for every robot and arithmetic (servos settle, waits end); `C134_kit`: hosts that never wait; `C134_waiting`: instructions with inputs and times, obliging surroundings (C128); `C134_single`: binary32, moves by joint angles (C107), any libm with non-negative square roots. `C134_single_demo`; `C134_demo`: a move and an immediate question.
* C135 — `Props/Stale.lean`, from C133: while `n` is not due and no order numbered `n` begins, the rules do not allow N1 `n` (`not_said`); an order at once makes its own number due. `C135_stale` (finite), `C135_never` (endless); `C135_demo`: N5, a move, interrupted by V9: N1 5 is not sent, the next instruction begins and is reported.
* C136 — `Props/Final.lean`: with a counting host everything is started (C106), in the order sent; so the last instruction naming a place is started at some `k0`, is reported or followed, and after it only instructions that name no place begin (`last_place`, by counting what has begun); nobody touches the arm any more (C117), so C123 and C113 hold for ever. `C136_angles`, `C136_pose`, `C136_line`, `C136_timing`; `C136_demo` for two histories with arbitrary clocks and inputs. `C136_rounded`: joint moves in binary32 (C107, C109), to 1.3e-4; `C136_demo_rounded`.
* C137 — `Props/Same.lean`: C131 and C126 for every arithmetic (`talk_rest_of`, `pins_rest_of`, from which their theorems for the kit follow), with the liveness of C90 and C80; `C137_waiting` from C128, `C137_rounded` from C107, `C137_same` with C136 for the arm; `C137_demo` has one history in each arithmetic.
* C138 — `Props/FinalWait.lean`: C136 for a host whose instructions wait (`left_alone` of C136 is for any liveness; here that of C128): `C138_angles`, `C138_pose`, `C138_line`; `C138_pauses` compares a program that waits with one that does not. `C138_demo`: a pose, then N6I11D5; both reported, pin 11 an input, the arm at the pose for ever. `Props/FinalWait32.lean` has the same in single precision: `C138_rounded` (conversation, pins and arm), `C138_demo_rounded`.
* C139 — `Spec/Everything.lean` (`LastAxis`), `Props/Everything.lean`: `AllDone` puts C131, C126, C138 and C129 together (`axis_arrives`: C129 for any liveness) for a host whose instructions wait. `C139_demo`: a pose, the gripper, then N6I11D5.
* C140 — `Props/FinalTurns.lean`: `last_now` (the instructions started at once are the first of those sent, C91, and all are started), C112 for the report, C110/C117 for the rest. `C140_same`: at once or from the queue, with C136. `C140_demo`: E N6M0R31, then E M0V70N5R01... .
* C77, C79, C80, C90, C95 with rounding (`Props/LivenessR.lean`) — in every rounded format the distance `vel * elapsed / 1000`, three times rounded, exceeds
  any admissible way before the millisecond counter overflows, and a servo that has arrived stays exactly where it is; so the general theorems apply to
  the kit in binary32 (assumed: no NaN and no positive speed below 1/1000 rad/s is stored, `sqrt` gives no negative number).
* C67 with rounding (`Props/RoundingLine.lean`) — refuted: in binary32, even with a correctly rounded libm, a straight move of constant orientation
  can compute `acos(1 + 2^-23)`, which is NaN, and convert it to `int`; `C67_rounded_false`, `C67_rounded_steps_false`.
* C95 — C77 (rest) and fairness give a pass in which the dispatcher runs; it takes a stored instruction; C93 says which one.
* C96 — induction over the lives: C92 (cut) and `WellSent` keep the storage careful, then C81.
* C97 — `Spec/Reading` defines how a host reads frames (`readNote`, `skim`); reading is inverse to the modelled printing, then induction over the outputs of a history (`C97_read`).
* C98 — monitor over the whole history (`ansMon`, `askMon`): the readings since the start justify the values; `text_inj` makes the commands of an instruction unique.
* C99 — monitor counting answers since the last start; false for questions that are not the last command (witness `C99_answered_false`), hence partial.
* C100 — removes the assumption of C77-C95 about the speeds the firmware commands. `Spec/Brisk`: host that names no speed in [0, 1/1000), interrupts that do not divide the command of a slow servo (`Undivided`). Proof: monitor over the robot controller showing that the stores into the servos come in blocks with speed = way / time and time ≤ 2·10^6 s (`Proof/Brisk`), then induction over passes: between passes the way of every servo fits its speed (`Props/Brisk`). `C100_race_false` (Rat, `Props/BriskRace`): with the interrupt between the two readings of a servo (RobotController.cpp:745-751, VarSpeedServo.cpp:111-115) the arm never comes to rest.
