{"id": "C01", "title": "Instruction queue is FIFO", "statement": "Any history of putBytes / getMessage / clear calls on the queue behaves like a first-in first-out list of messages: getMessage returns exactly the oldest message that was accepted and not yet taken or cleared, byte for byte, and an empty message when there is none.", "quantifier": "all capacities, all finite histories of put/get/clear, all messages not containing the separator byte '!', including every wrap-around position", "why_tests_cant": "the wrap-around position and occupancy form an unbounded history-dependent state; a test samples a few fills", "anchors": ["src/RingBuffer.cpp: RingBuffer::putBytes", "src/RingBuffer.cpp: RingBuffer::getMessage", "src/RingBuffer.cpp: RingBuffer::clear"]}
{"id": "C02", "title": "Queue capacity and atomic refusal", "statement": "putBytes accepts a message of n bytes if and only if n+1 more bytes fit into the capacity; an accepted message occupies n+1 bytes, a refused message changes nothing observable, and the size never exceeds the capacity.", "quantifier": "all reachable queue states and all message lengths (below 2^32 in total)", "why_tests_cant": "boundary must hold at every occupancy/position, for every capacity", "anchors": ["src/RingBuffer.cpp: RingBuffer::putBytes", "src/RingBuffer.cpp: RingBuffer::getSize"]}
{"id": "C03", "title": "Put-in-front prepends", "statement": "putBytesInFront(m) makes m the next message returned by getMessage and leaves the rest of the queue unchanged.", "quantifier": "all queue states and all messages", "why_tests_cant": "history dependent; depends on position wrap and message length (found false: the last byte is dropped)", "anchors": ["src/RingBuffer.cpp: RingBuffer::putBytesInFront", "src/RingBuffer.cpp: RingBuffer::putInFront"]}
{"id": "C04", "title": "Byte-level deque behaviour", "statement": "get / getByte / getFromBack / peek / getSize agree with a plain byte sequence: get removes the oldest byte, getFromBack the newest, peek(i) shows the i-th without removing; on an empty buffer get returns '!' and getFromBack returns 0.", "quantifier": "all histories of byte level operations, all capacities > 0, all positions", "why_tests_cant": "unbounded histories with wrap-around", "anchors": ["src/RingBuffer.cpp: RingBuffer::get", "src/RingBuffer.cpp: RingBuffer::getByte", "src/RingBuffer.cpp: RingBuffer::getFromBack", "src/RingBuffer.cpp: RingBuffer::peek"]}
{"id": "C05", "title": "Frame decoding of arbitrary byte streams", "statement": "Feeding any byte stream to the serial parser hands over exactly the payloads of its frames: for every carriage return, the upper-cased allowed characters since the last ':' (or previous frame end), cut at a comment, in order, nothing else and none lost; over-long frames are discarded.", "quantifier": "all byte streams (any length, any bytes, any chunking)", "why_tests_cant": "infinitely many byte streams; state carried between frames", "anchors": ["src/MRCPParser.cpp: MRCPParser::parseChar"]}
{"id": "C06", "title": "Noise insensitivity", "statement": "Inserting or deleting bytes that are neither allowed characters, frame delimiters nor comment starters anywhere in the stream does not change what is executed.", "quantifier": "all streams and all noise insertions", "why_tests_cant": "unbounded combinations of positions and noise", "anchors": ["src/MRCPParser.cpp: MRCPParser::parseChar"]}
{"id": "C07", "title": "Case insensitivity", "statement": "Changing the case of any letters in the stream does not change what is executed.", "quantifier": "all streams", "why_tests_cant": "unbounded", "anchors": ["src/MRCPParser.cpp: MRCPParser::toUpper", "src/MRCPParser.cpp: MRCPParser::parseChar"]}
{"id": "C08", "title": "Comments never influence execution", "statement": "Text between a comment starter ('#' or '(') and the end of the frame has no influence on what is executed.", "quantifier": "all frames and all comment texts", "why_tests_cant": "comment text is arbitrary (found false when the comment contains ':')", "anchors": ["src/MRCPParser.cpp: MRCPParser::parseChar", "src/MRILParser.cpp: MRILParser::parse"]}
{"id": "C09", "title": "Framing memory safety", "statement": "No byte stream makes the serial parser write outside its 80 byte input buffer.", "quantifier": "all byte streams", "why_tests_cant": "a single unlucky length suffices; tests use short frames (found false for frames of 79 and more payload bytes)", "anchors": ["src/MRCPParser.cpp: MRCPParser::parseChar"]}
{"id": "C10", "title": "Resynchronisation", "statement": "After any garbage, a new ':' starts a fresh frame whose payload is decoded as if it were the first.", "quantifier": "all garbage prefixes and all frames", "why_tests_cant": "prefix arbitrary (needs: no pending comment, no overflow pending)", "anchors": ["src/MRCPParser.cpp: MRCPParser::parseChar"]}
{"id": "C11", "title": "Command dispatch", "statement": "A received frame does exactly what its first letter says: B answers the free space, E executes now, Q queues (alone: empties the queue), W stores (alone: erases), anything else queues the whole payload; nothing else of queue, storage and mode changes.", "quantifier": "all payloads, all queue/storage/mode states", "why_tests_cant": "all combinations of payload and state", "anchors": ["src/MRCPParser.cpp: MRCPParser::parseCommand"]}
{"id": "C12", "title": "Free-space reports are accurate", "statement": "Each B reply equals capacity minus bytes in use; any single message shorter than the last reported value is accepted if nothing was queued in between, and one of at least that length is refused.", "quantifier": "all histories", "why_tests_cant": "depends on all queue histories", "anchors": ["src/MRCPParser.cpp: MRCPParser::sendFreeBufferSize", "src/RingBuffer.cpp: RingBuffer::putBytes"]}
{"id": "C13", "title": "One instruction at a time", "statement": "The queue or the storage is consumed only when the previous instruction is reported done, at most one instruction per loop pass, and never in immediate mode.", "quantifier": "all loop histories", "why_tests_cant": "schedule dependent", "anchors": ["src/MRCPParser.cpp: MRCPParser::process", "src/MRILParser.cpp: MRILParser::isDone"]}
{"id": "C14", "title": "Stored program round trip", "statement": "Messages appended to the storage are read back in order and unchanged by getMessage(i) / getNumberOfMessages; clear removes all.", "quantifier": "all sequences of clear/append of messages of 1..255 bytes that fit", "why_tests_cant": "unbounded histories over 2048 bytes of memory", "anchors": ["src/EEPromStorage.cpp: EEPromStorage::appendMessage", "src/EEPromStorage.cpp: EEPromStorage::getMessage", "src/EEPromStorage.cpp: EEPromStorage::getNumberOfMessages"]}
{"id": "C15", "title": "Storage bounds", "statement": "appendMessage never writes outside the 2048 bytes; if a message does not fit nothing is written.", "quantifier": "all storage contents and message lengths", "why_tests_cant": "boundary at every fill level (found false: the terminator may be written at address 2048)", "anchors": ["src/EEPromStorage.cpp: EEPromStorage::appendMessage"]}
{"id": "C16", "title": "Crash safety of storage writes", "statement": "If power fails after any prefix of the individual byte writes of appendMessage, all previously stored messages are still readable unchanged at the next boot (and the list holds either the old or the new program).", "quantifier": "all storage contents, messages and crash points", "why_tests_cant": "crash points cannot be enumerated on hardware (second half found false: not atomic)", "anchors": ["src/EEPromStorage.cpp: EEPromStorage::appendMessage"]}
{"id": "C17", "title": "Replay order", "statement": "In storage mode the stored instructions are replayed cyclically in order, each exactly once per cycle.", "quantifier": "all programs and all numbers of steps", "why_tests_cant": "unbounded cycles (found false: the first message is never replayed)", "anchors": ["src/EEPromStorage.cpp: EEPromStorage::getNextMessage"]}
{"id": "C18", "title": "Power cycle", "statement": "After power-up the controller replays the stored program if at least one message is stored, and otherwise waits for commands; the stored program is exactly the one stored before power-off.", "quantifier": "all stored programs", "why_tests_cant": "all histories before power-off", "anchors": ["src/MRCPParser.cpp: MRCPParser::MRCPParser", "src/EEPromStorage.cpp: EEPromStorage::getNumberOfMessages"]}
{"id": "C19", "title": "Robustness against arbitrary storage contents", "statement": "Whatever bytes the storage holds, scanning it terminates, and reading a message never overruns the caller's 80-byte buffer.", "quantifier": "all 256^2048 storage contents", "why_tests_cant": "space of contents (found false for the buffer: erased flash yields 255-byte messages)", "anchors": ["src/EEPromStorage.cpp: EEPromStorage::getMessage", "src/MRCPParser.cpp: MRCPParser::process"]}
{"id": "C20", "title": "An instruction executes exactly its commands", "statement": "An instruction made of commands letter+argument executes exactly those commands, each once, in order, with those arguments.", "quantifier": "all lists of commands (any number) with arguments of digits, '.', '-' and at most 19 characters", "why_tests_cant": "all instruction texts", "anchors": ["src/MRILParser.cpp: MRILParser::parse"]}
{"id": "C21", "title": "One transaction per instruction", "statement": "All settings of one instruction are applied in one transaction: no move can start before the instruction has been read completely, and the transaction is always closed at the end.", "quantifier": "all instructions and all interruptions", "why_tests_cant": "schedules", "anchors": ["src/MRILParser.cpp: MRILParser::parse", "src/RobotController.cpp: RobotController::startTransaction"]}
{"id": "C22", "title": "Instruction comments and unknown symbols", "statement": "Text after '#' or '(' in an instruction is never executed and the commands before it are executed as without it; unknown command letters change nothing.", "quantifier": "all instructions", "why_tests_cant": "all texts", "anchors": ["src/MRILParser.cpp: MRILParser::parse"]}
{"id": "C23", "title": "Reads have no side effects", "statement": "An instruction consisting only of read commands changes no setting, target, output or wait; it yields exactly one reply frame containing the answers in order.", "quantifier": "all read-only instructions and all states", "why_tests_cant": "all states", "anchors": ["src/MRILParser.cpp: MRILParser::parse"]}
{"id": "C24", "title": "Completion notices are never spurious or duplicated", "statement": "A completion notice N1<n> is sent only for an instruction numbered n that was accepted before, at most once per acceptance, and (outside replies to reads) only when not moving, not waiting and no input condition pending.", "quantifier": "all histories of instructions, ticks, inputs and times", "why_tests_cant": "unbounded histories", "anchors": ["src/MRILParser.cpp: MRILParser::parse", "src/MRILParser.cpp: MRILParser::process"]}
{"id": "C25", "title": "Completion notices are complete in queue operation", "statement": "In pure queue operation every consumed numbered write instruction is answered by exactly one N0<n> and, before the next instruction starts, by exactly one N1<n>.", "quantifier": "all queue histories", "why_tests_cant": "unbounded histories", "anchors": ["src/MRILParser.cpp: MRILParser::process", "src/MRCPParser.cpp: MRCPParser::process"]}
{"id": "C26", "title": "Instruction parser memory safety", "statement": "No instruction makes the instruction parser access memory outside its 20 byte token buffer, the 10 pin table entries or the 8 axes.", "quantifier": "all instructions up to 80 bytes", "why_tests_cant": "all texts (found false, e.g. R9, I, O, 20 digit numbers)", "anchors": ["src/MRILParser.cpp: MRILParser::parse"]}
{"id": "C27", "title": "Decimal numbers", "statement": "A plain decimal number written in an instruction ([-]digits[.digits]) is taken with exactly its mathematical value (before rounding to float).", "quantifier": "all decimal literals", "why_tests_cant": "infinitely many literals", "anchors": ["src/MRILParser.cpp: MRILParser::parse (atof)"]}
{"id": "C28", "title": "Units and axis mapping", "statement": "X,Y,Z are taken as given, A,B,C and R in degrees are converted to radians; R0..R5 address the arm axes and R6,R7 the additional axes; reads convert back so that a read after a completed write returns the written number.", "quantifier": "all values and axes", "why_tests_cant": "all values", "anchors": ["src/MRILParser.cpp: MRILParser::parse", "src/AdditionalAxisController.h"]}
{"id": "C29", "title": "Separators do not merge commands", "statement": "Separating commands by ',' or other ignored characters executes the same commands as without separators.", "quantifier": "all instructions", "why_tests_cant": "all texts (found false: X10,Y20 loses Y20)", "anchors": ["src/MRILParser.cpp: MRILParser::parse"]}
{"id": "C30", "title": "Input waits", "statement": "A pending input condition set releases exactly when all conditions are observed satisfied in one check; until then the next instruction is not consumed.", "quantifier": "all condition sets and all input histories", "why_tests_cant": "input histories", "anchors": ["src/IOLogic.cpp: IOLogic::isDone", "src/IOLogic.cpp: IOLogic::addCondition"]}
{"id": "C31", "title": "Outputs", "statement": "O<pin><state> drives exactly the mapped pin to exactly the state and no other pin; other states than 0/1 drive nothing.", "quantifier": "all pins and states", "why_tests_cant": "all combinations/histories", "anchors": ["src/IOLogic.cpp: IOLogic::setOutput"]}
{"id": "C32", "title": "Input condition capacity", "statement": "Adding any number of conditions is safe.", "quantifier": "all numbers of conditions", "why_tests_cant": "unbounded (found false from the 11th on)", "anchors": ["src/IOLogic.cpp: IOLogic::addCondition"]}
{"id": "C33", "title": "Target state query", "statement": "getTargetState(pin) returns the first pending required level of that pin, or 2 if none is pending.", "quantifier": "all condition sets", "why_tests_cant": "all sets", "anchors": ["src/IOLogic.cpp: IOLogic::getTargetState"]}
{"id": "C34", "title": "Waiting", "statement": "After D<ms> the instruction is not done before ms milliseconds have passed and is done right after.", "quantifier": "all start times and durations without counter wrap", "why_tests_cant": "time values", "anchors": ["src/WaitController.h: WaitController::waitMs, isDone"]}
{"id": "C35", "title": "Waiting across the millisecond counter wrap", "statement": "Waiting is correct also when the 32 bit millisecond counter wraps around.", "quantifier": "all start times", "why_tests_cant": "needs 49 days of uptime (found false)", "anchors": ["src/WaitController.h: WaitController"]}
{"id": "C36", "title": "Servo speed limit", "statement": "A servo's speed setting is always positive and at most its configured maximum, whatever is requested.", "quantifier": "all requested velocities", "why_tests_cant": "all floats incl. NaN (NaN and maxima below 0.1 are exceptions)", "anchors": ["src/VarSpeedServo.cpp: VarSpeedServo::setCurrentAngleVelocity"]}
{"id": "C37", "title": "Servo never leaves its commanded range", "statement": "If all targets given to a servo lie in an interval containing its start angle, its angle stays in that interval at all times, for every interleaving of target changes, speed changes and timer ticks, including ticks in the middle of a target change.", "quantifier": "all interleavings, all numeric (non-NaN) velocities", "why_tests_cant": "interrupt interleavings", "anchors": ["src/VarSpeedServo.cpp: VarSpeedServo::setTargetRadAngle", "src/VarSpeedServo.cpp: VarSpeedServo::process"]}
{"id": "C38", "title": "Servo arrives and stays", "statement": "With constant target and speed v, after enough ticks the servo is exactly at the target and stays there forever (also across the wrap of the elapsed time counter), and before that it moves monotonically towards the target. Provided that covering the distance at speed v takes less than 2^32 ms.", "quantifier": "all start/target angles, speeds, tick lengths", "why_tests_cant": "unbounded time", "anchors": ["src/VarSpeedServo.cpp: VarSpeedServo::process", "src/VarSpeedServo.cpp: VarSpeedServo::atTargetAngle"]}
{"id": "C39", "title": "Per-tick speed", "statement": "In one tick of dt ms the servo moves at most v*dt/1000.", "quantifier": "all states", "why_tests_cant": "all states (found false when the speed changes during a move: position jumps)", "anchors": ["src/VarSpeedServo.cpp: VarSpeedServo::process", "src/VarSpeedServo.cpp: VarSpeedServo::setCurrentAngleVelocity"]}
{"id": "C40", "title": "Pulse width range", "statement": "While the angle is in [min,max] the pulse width sent lies between the two calibration values and min/max map to the calibration values; it is monotone in the angle.", "quantifier": "all angles", "why_tests_cant": "all angles", "anchors": ["src/VarSpeedServo.cpp: VarSpeedServo::move", "src/VarSpeedServo.cpp: VarSpeedServo::map_float"]}
{"id": "C41", "title": "Joint limits", "statement": "Whenever a move (or segment) is started, every angle commanded to an arm servo is within both the logical limits and the servo's physical limits.", "quantifier": "all controller states, targets, kinematics, couplings", "why_tests_cant": "all states (NaN passes the checks)", "anchors": ["src/RobotController.cpp: RobotController::process"]}
{"id": "C42", "title": "Rejected moves move nothing", "statement": "If a move or segment violates a limit or is unreachable, no servo is commanded, the controller becomes idle and its targets are reset to the current position.", "quantifier": "all states", "why_tests_cant": "all states", "anchors": ["src/RobotController.cpp: RobotController::process"]}
{"id": "C43", "title": "Transactions", "statement": "Between startTransaction and endTransaction no newly set target starts moving, and after endTransaction all of them are applied together in one move.", "quantifier": "all sequences of settings and process calls", "why_tests_cant": "interleavings", "anchors": ["src/RobotController.cpp: RobotController::process", "src/RobotController.cpp: RobotController::startTransaction"]}
{"id": "C44", "title": "Mixed pose and angle targets", "statement": "Setting both pose and angles in one transaction starts no move and leaves the controller idle.", "quantifier": "all states and values", "why_tests_cant": "all values", "anchors": ["src/RobotController.cpp: RobotController::process"]}
{"id": "C45", "title": "Simultaneous arrival", "statement": "In a point-to-point move all axes arrive together: every commanded axis is given the speed distance/time for one common time.", "quantifier": "all starts/targets/limits (no servo speed floor/ceiling active)", "why_tests_cant": "continuous domain", "anchors": ["src/RobotController.cpp: RobotController::process"]}
{"id": "C46", "title": "Straight line", "statement": "In linear mode all way points lie on the straight segment from start to target position, equally spaced, at most 0.5 units apart, with the target orientation, and the last one is the target.", "quantifier": "all start/target poses", "why_tests_cant": "continuous domain", "anchors": ["src/RobotController.cpp: RobotController::process"]}
{"id": "C47", "title": "Linear moves end", "statement": "A linear move consists of exactly the planned number of segments and then becomes idle; no schedule makes it run more segments.", "quantifier": "all poses, schedules", "why_tests_cant": "liveness/unbounded", "anchors": ["src/RobotController.cpp: RobotController::process"]}
{"id": "C48", "title": "Commanded speed", "statement": "The time allotted to a move is never shorter than distance/V nor than what the slowest servo needs.", "quantifier": "all moves with V>0", "why_tests_cant": "continuous domain", "anchors": ["src/RobotController.cpp: RobotController::process"]}
{"id": "C49", "title": "Set/get", "statement": "Target getters return what was last set; unrelated settings are not touched.", "quantifier": "all histories of setters", "why_tests_cant": "histories", "anchors": ["src/RobotController.cpp: RobotController::setTargetPose", "src/RobotController.cpp: RobotController::setTargetLogicalAngle"]}
{"id": "C50", "title": "Unreachable target poses are not retained", "statement": "After an unreachable pose command the controller's target equals the current pose again, so later commands start from there.", "quantifier": "all states", "why_tests_cant": "all states (found false: the unreachable target pose is retained)", "anchors": ["src/RobotController.cpp: RobotController::process", "src/Kinematic.cpp: Kinematic::inverse"]}
{"id": "C51", "title": "Busy/idle reporting", "statement": "isMoving is true from setting a target until the move has finished or been rejected; when it becomes false after an accepted move all arm servos are at their targets.", "quantifier": "all histories", "why_tests_cant": "histories", "anchors": ["src/RobotController.cpp: RobotController::isMoving", "src/RobotController.cpp: RobotController::process"]}
{"id": "C52", "title": "Physical and logical readings agree", "statement": "The physical angles read back equal the servo angles and logical angles are the decoupled ones, if the coupling functions are mutually inverse.", "quantifier": "all servo angles", "why_tests_cant": "continuous domain", "anchors": ["src/RobotController.cpp: RobotController::getCurrentPhysicalAngles", "src/RobotController.cpp: RobotController::getCurrentLogicalAngles"]}
{"id": "C53", "title": "Forward kinematics is the joint chain", "statement": "forward() computes exactly the pose of the serial chain of joint rotations z,y,y,x,y and finally z (after the fixed half turn of the flange) with the configured links between them.", "quantifier": "all geometries and angles", "why_tests_cant": "continuous domain", "anchors": ["src/Kinematic.cpp: Kinematic::calculateCoordinates", "src/Kinematic.cpp: Kinematic::forward"]}
{"id": "C54", "title": "Links are rigid", "statement": "The distance between consecutive joints computed by forward kinematics equals the link length for all angles, and the tool orientation is a proper rotation.", "quantifier": "all geometries and angles", "why_tests_cant": "continuous domain", "anchors": ["src/Kinematic.cpp: Kinematic::calculateCoordinates"]}
{"id": "C55", "title": "Orientation angles are consistent", "statement": "The returned A,B,C reproduce the tool orientation matrix: R = Rx(A)Ry(B)Rz(C), including gimbal lock.", "quantifier": "all angles", "why_tests_cant": "continuous domain incl. measure-zero cases", "anchors": ["src/Kinematic.cpp: Kinematic::calculateCoordinates"]}
{"id": "C56", "title": "Inverse kinematics is correct", "statement": "If inverse() reports OK, forward() of its result is the requested pose (position and orientation).", "quantifier": "all supported geometries and poses (non singular)", "why_tests_cant": "continuous domain", "anchors": ["src/Kinematic.cpp: Kinematic::inverse", "src/Kinematic.cpp: Kinematic::forward"]}
{"id": "C57", "title": "Out-of-range detection", "statement": "inverse() reports OUT_OF_RANGE exactly when the wrist point is outside the reachable shell/cylinder, and then leaves the angles untouched.", "quantifier": "all poses", "why_tests_cant": "continuous domain", "anchors": ["src/Kinematic.cpp: Kinematic::inverse"]}
{"id": "C58", "title": "Kit coupling is invertible", "statement": "For the kit configuration logical->physical->logical is the identity, both ways.", "quantifier": "all angles", "why_tests_cant": "continuous domain", "anchors": ["config/mp-robot-kit.h: logicalToPhysicalAngles, physicalToLogicalAngles"]}
{"id": "C59", "title": "Robot-D coupling is invertible", "statement": "For the mp-robot-d linkage logical->physical->logical is the identity over the logical limits.", "quantifier": "all angles in the logical limits", "why_tests_cant": "continuous domain", "anchors": ["config/mp-robot-d.h: logicalToPhysicalAngles, physicalToLogicalAngles"]}
{"id": "C60", "title": "Sequencing", "statement": "A queued instruction starts only after the motion, waits and input conditions of the previous one have finished.", "quantifier": "all schedules", "why_tests_cant": "schedules", "anchors": ["src/MRCPParser.cpp: MRCPParser::process", "src/MRILParser.cpp: MRILParser::process"]}
{"id": "C61", "title": "End-to-end order", "statement": "Instructions received for the queue and accepted are executed exactly once, in the order received, unless the queue is cleared.", "quantifier": "all byte streams and schedules", "why_tests_cant": "schedules and streams", "anchors": ["src/main.cpp: loop", "src/MRCPParser.cpp: MRCPParser::parseChar", "src/RingBuffer.cpp: RingBuffer"]}
{"id": "C62", "title": "System-wide limit safety", "statement": "Whatever bytes arrive and however interrupts interleave, no arm servo is ever driven outside its configured range (as long as no NaN is injected).", "quantifier": "all byte streams, schedules, input levels, storage contents", "why_tests_cant": "everything at once", "anchors": ["src/main.cpp: loop, updateServos", "src/RobotController.cpp: RobotController::process", "src/VarSpeedServo.cpp: VarSpeedServo::process"]}
{"id": "C63", "title": "Wire format", "statement": "Everything the controller sends consists of well-formed frames ':' text CR LF.", "quantifier": "all histories", "why_tests_cant": "histories (found false: raw debug prints)", "anchors": ["src/MRCPR.h: MRCPR::sendMessage", "src/SerialIO.h: SerialIO::transmit", "src/RobotController.cpp: RobotController::process"]}
{"id": "C64", "title": "Serial pacing", "statement": "One loop pass consumes at most 30 serial bytes, in order, none lost or duplicated.", "quantifier": "all input histories", "why_tests_cant": "histories", "anchors": ["src/SerialIO.h: SerialIO::process"]}
{"id": "C65", "title": "Immediate commands do not disturb the queue", "statement": "E... leaves mode, queue and stored program unchanged.", "quantifier": "all instructions and states", "why_tests_cant": "all states", "anchors": ["src/MRCPParser.cpp: MRCPParser::parseCommand"]}
{"id": "C66", "title": "Stop", "statement": "stop() makes the controller idle at once; pending targets and servo motions are retained as documented.", "quantifier": "all states", "why_tests_cant": "all states", "anchors": ["src/RobotController.cpp: RobotController::stop"]}
{"id": "C67", "title": "Motion control is free of undefined behaviour", "statement": "A call of process() performs no undefined behaviour (out of bounds access, read of an uninitialised variable, overflowing conversion) for point-to-point moves and for linear moves between numeric poses less than 2^30-1 units apart. (Circular moves read uninitialised angles.)", "quantifier": "all states, targets and servo readings", "why_tests_cant": "all states; undefined behaviour need not show in a test", "anchors": ["src/RobotController.cpp: RobotController::process"]}
{"id": "C68", "title": "Poses the arm can take are accepted", "statement": "The pose reported by forward() for any joint angles with the wrist in front of the base axis (and neither exactly on it nor at the shoulder) is accepted by inverse(); it is never reported as out of range.", "quantifier": "all supported geometries and all joint angles", "why_tests_cant": "continuum of angles", "anchors": ["src/Kinematic.cpp: Kinematic::forward, Kinematic::inverse"]}
{"id": "C69", "title": "Commanding the pose read back moves nothing", "statement": "inverse(forward(A)) = A for the joint angles A the arm uses (elbow not bent backwards, forearm turned by less than a quarter turn, hand not in line with the forearm, wrist in front of the base): the pose that was read back leads to the same joint angles, not to another arm configuration.", "quantifier": "all supported geometries and joint angles", "why_tests_cant": "continuum of angles", "anchors": ["src/Kinematic.cpp: Kinematic::forward, Kinematic::inverse", "config/mp-robot-kit.h"]}
{"id": "C70", "title": "Additional axes stay within their range", "statement": "An additional axis (R6, R7) is never driven outside of the angle range its servo was configured with.", "quantifier": "all inputs, all interleavings with the timer interrupt, the whole run", "why_tests_cant": "unbounded histories and interleavings", "anchors": ["src/AdditionalAxisController.h", "src/MRILParser.cpp: case 'R', case 'V'", "src/VarSpeedServo.cpp"]}
{"id": "C71", "title": "Redrawing the display has no influence on the robot", "statement": "Redrawing the display moves no servo, changes no output, writes neither storage nor serial line, consumes no input, and a main loop pass with redrawing behaves exactly as one without.", "quantifier": "all states and interleavings", "why_tests_cant": "all states of the firmware and all interleavings", "anchors": ["src/main.cpp: renderDisplay, loop", "src/Display.h"]}
{"id": "C72", "title": "The picture of the arm", "statement": "The picture drawn of the arm is the projection (front, top or side view) of the chain of joints for the angles read, and drawing never makes an undefined number conversion.", "quantifier": "all servo angles, geometries that fit the coordinate range, views and positions", "why_tests_cant": "continuum of angles", "anchors": ["src/Display.h: displayRobot", "src/Kinematic.cpp: forward (joint coordinates)"]}
{"id": "C73", "title": "The axis bars", "statement": "For every servo the display draws a mark at the home angle and bars from there to the target and to the current angle, each at the proportional place between the limits; bars never leave their area.", "quantifier": "all servo states within range, all interleavings with the interrupt", "why_tests_cant": "continuum of angles, interleavings", "anchors": ["src/Display.h: displayBars, map_float2"]}
{"id": "C74", "title": "The input marks", "statement": "The display shows for each of the ten inputs whether a pending condition requires it low, high or not at all.", "quantifier": "all pending conditions", "why_tests_cant": "all condition lists", "anchors": ["src/main.cpp: renderDisplay", "src/IOLogic.cpp: getTargetState", "config/mp-robot-kit.h: pinMap"]}
{"id": "C75", "title": "Completion covers the additional axes", "statement": "An instruction that moves an additional axis is reported as finished, and the next one started, only after that axis arrived.", "quantifier": "all histories", "why_tests_cant": "unbounded histories and interleavings", "anchors": ["src/MRILParser.cpp: process", "src/MRCPParser.cpp: process", "src/AdditionalAxisController.h"]}
{"id": "C76", "title": "Completion means arrival", "statement": "When an instruction is reported as finished (N1), or the next instruction from the queue or the storage is started, every arm servo has been seen at its target since it was last commanded. Instructions that leave the arm alone do not disturb this, whenever they begin.", "quantifier": "all histories: all inputs, queue contents, storage contents, moves, rejections", "why_tests_cant": "unbounded histories", "anchors": ["src/MRILParser.cpp: process", "src/RobotController.cpp: process", "src/MRCPParser.cpp: process"]}
{"id": "C77", "title": "The arm comes to rest", "statement": "If from some time on no new instruction begins other than immediate questions (and no servo speed or target is NaN), then the arm eventually stops: from some time on no servo is commanded, every servo is at its target and the controller reports no movement.", "quantifier": "all endless histories: any interleaving of main loop and interrupt, any moves under way, any inputs", "why_tests_cant": "liveness over infinite executions: no finite run refutes or establishes it", "anchors": ["src/RobotController.cpp: process", "src/VarSpeedServo.cpp: process", "src/main.cpp: loop, updateServos"]}
{"id": "C78", "title": "No queued instruction is forgotten", "statement": "An instruction in the queue begins eventually, as the next one, provided it is not cleared, no immediate instruction (other than questions, which may be asked at any time) or switch to the storage intervenes, and what is waited for does occur.", "quantifier": "all endless histories", "why_tests_cant": "liveness over infinite executions", "anchors": ["src/MRCPParser.cpp: process", "src/MRILParser.cpp: process", "src/IOLogic.cpp: isDone", "src/WaitController.h"]}
{"id": "C79", "title": "The queue is drained", "statement": "Under the conditions of C78 all instructions in the queue begin eventually, in order, before any other. Immediate instructions that only ask may be sent at any time.", "quantifier": "all endless histories and queue contents", "why_tests_cant": "liveness over infinite executions", "anchors": ["src/MRCPParser.cpp: process", "src/RingBuffer.cpp"]}
{"id": "C80", "title": "Completion is reported", "statement": "Every numbered instruction from the queue or the storage is eventually answered by N1<n>, before any other instruction begins; immediate instructions that only ask may come at any time and do not count.", "quantifier": "all endless histories", "why_tests_cant": "liveness over infinite executions", "anchors": ["src/MRILParser.cpp: process, parse"]}
{"id": "C81", "title": "A careful host never crashes the controller", "statement": "If the host sends only frames that fit the buffers, made of commands with existing axes and pins, plain decimal numbers (positions up to 10^8 units, speed not zero), at most ten input conditions per queued or stored instruction and none in immediate ones, and the storage holds only such instructions, then the firmware never accesses memory out of bounds, never converts a number that does not fit, never uses an uninitialised one, and every number it stores into a servo or reports to the host is finite.", "quantifier": "all histories: all such byte streams however split and timed, all storage contents of such a host, all input pin and clock behaviours, all interleavings with the servo interrupt", "why_tests_cant": "must hold for all inputs and schedules and for every arithmetic path through both kinematics; tests sample a few", "anchors": ["src/MRILParser.cpp: parse", "src/MRCPParser.cpp: parseChar", "src/RobotController.cpp", "src/Kinematic.cpp", "src/main.cpp: loop"]}
{"id": "C82", "title": "With a careful host the servos never leave their ranges", "statement": "Under the conditions of C81 the arm servos of the kit are always within their configured ranges and their pulse widths within the calibrated ones; no NaN exception is needed.", "quantifier": "all histories as in C81", "why_tests_cant": "safety over all inputs, schedules and interrupt points", "anchors": ["src/RobotController.cpp: process (START_MOVE)", "src/VarSpeedServo.cpp: process", "src/main.cpp: setup"]}
{"id": "C83", "title": "With a careful host the arm comes to rest", "statement": "Under the conditions of C81, if from some time on no instruction begins (and no positive servo speed below 1/1000 rad/s is commanded), the arm of the kit eventually rests with every servo at its target and no movement reported.", "quantifier": "all endless histories of such a host", "why_tests_cant": "liveness over infinite executions and all inputs", "anchors": ["src/RobotController.cpp: process", "src/VarSpeedServo.cpp: process", "src/main.cpp: loop"]}
{"id": "C84", "title": "The arm is where the angles told", "statement": "When an instruction from the queue or the storage that gives joint angles (R0-R5, movement M0, no pose letters) is reported as finished (N1) or the next instruction starts, and nothing that concerns the arm was started in between (questions, waiting, inputs, outputs and additional axes may be, even during the move), then the arm has moved to angles in which every axis named has the angle given to it last: every servo was sent to its angle exactly once and was then seen there; or it was there already and was left alone; or the angles are outside the limits and no servo was touched. For the kit with a careful host and all six angles given: every servo was seen within 1e-4 rad of the angle told and not touched since.", "quantifier": "all histories, all instruction texts of this form, all numbers (decimal), any number arithmetic for the first part, exact arithmetic for the numeric part", "why_tests_cant": "end to end: from the characters of the instruction to the servos, over all interleavings with the serial line and the timer interrupt", "anchors": ["src/MRILParser.cpp: parse, process", "src/RobotController.cpp: process", "src/VarSpeedServo.cpp: atTargetAngle"]}
{"id": "C85", "title": "The tool is where the pose told", "statement": "The same for an instruction that gives pose coordinates (X Y Z A B C, movement M0): the pose with the coordinates named is out of reach, or the arm has moved to angles that inverse kinematics gives for it. For the kit with a careful host, all six coordinates within reach: the servos were seen within 1e-4 rad of angles whose tool position and orientation are exactly those told (wrist not straight).", "quantifier": "as C84, all poses", "why_tests_cant": "end to end, over a continuum of poses", "anchors": ["src/MRILParser.cpp: parse", "src/RobotController.cpp: process", "src/Kinematic.cpp: inverse"]}
{"id": "C86", "title": "Linear moves visit every way point in order", "statement": "When an instruction from the queue or the storage with M1 that gives pose coordinates (or angles) is reported as finished, the arm has passed all way points of the straight line from where it was to the pose told: every servo was sent to the angles of each way point in order, and was seen at its target before it was sent to the next; or it stopped at a way point because the next one is out of reach or violates limits; or it was there already. Instructions that leave the arm alone (questions, waiting, inputs, outputs, additional axes) may begin at any time meanwhile.", "quantifier": "all histories, poses, numbers of way points, any number arithmetic", "why_tests_cant": "unbounded number of way points, all interleavings", "anchors": ["src/RobotController.cpp: process", "src/MRILParser.cpp"]}
{"id": "C87", "title": "Angles told are kept until told otherwise", "statement": "After an instruction that tells all six angles or coordinates, and then any sequence of instructions that tell some angles, some coordinates or nothing (M0 or no M, within reach and limits; immediate ones tell nothing), whenever an instruction is reported as finished or the next one starts the arm has moved to the angles that together were told: each axis to the one it was given last, coordinates not mentioned kept. For the kit with a careful host: every servo was seen within 1e-4 rad of that.", "quantifier": "all sequences of instructions and all histories", "why_tests_cant": "unbounded sequences, state carried from one instruction to the next", "anchors": ["src/RobotController.cpp: setTargetAngle, setTargetPose, process", "src/MRILParser.cpp"]}
{"id": "C88", "title": "A move is completed, reported, and correct", "statement": "Total correctness for the kit with a careful host: a numbered instruction in the queue that gives all six angles within the ranges (M0) is started, N1 with its number is sent before any other instruction begins, and by then every servo has been seen within 1e-4 rad of the angle told. Conditions: no immediate instruction other than questions from then on, queue not cleared, inputs waited for come again and again, no positive speed below 1/1000 rad/s.", "quantifier": "all endless histories of such a host", "why_tests_cant": "liveness and correctness together over infinite executions", "anchors": ["src/main.cpp: loop", "src/MRILParser.cpp", "src/RobotController.cpp", "src/VarSpeedServo.cpp"]}
{"id": "C89", "title": "Flow control: a host that counts loses nothing", "statement": "A host never clears the queue and counts: each free-space report B<n> that does not answer a question means that the next queued instruction has been taken; at any time the instructions sent and not known to be taken need at most 300 bytes (text plus one each). Then every instruction for the queue read by the controller has been accepted: those started, in order and each once, followed by those waiting, are exactly those read; and those started are the first of those sent.", "quantifier": "all histories of the whole system (any interleaving of bytes, interrupts, questions, immediate and stored instructions), all instruction sizes", "why_tests_cant": "depends on how arrivals, consumption and reports interleave over an unbounded history", "anchors": ["src/MRCPParser.cpp: parseCommand, process", "src/RingBuffer.cpp", "src/main.cpp: loop"]}
{"id": "C90", "title": "Flow control: everything is executed", "statement": "If such a host sends only instructions for the queue, questions (also immediate ones), erase and empty frames, then for every time n there is a later time at which all instructions sent up to n have been started, in the order sent, each once and before any other. Conditions: servos left alone arrive (for the kit with a careful host: no positive speed below 1/1000 rad/s), and again and again all inputs waited for are there and the waiting time is over.", "quantifier": "all endless histories", "why_tests_cant": "liveness over infinite executions", "anchors": ["src/main.cpp: loop", "src/MRCPParser.cpp: process", "src/MRILParser.cpp: process", "src/RobotController.cpp: process"]}
{"id": "C91", "title": "Immediate instructions are executed at once", "statement": "Each frame E<m> starts m as soon as its CR has been read, before any other effect of the controller, exactly once and in the order sent; no other immediate instruction is ever started.", "quantifier": "all histories, all byte streams", "why_tests_cant": "all interleavings and byte streams", "anchors": ["src/MRCPParser.cpp: parseChar, parseCommand", "src/SerialIO.h"]}
{"id": "C92", "title": "The stored program is what was sent", "statement": "Between two passes of the main loop the storage contains exactly the program obtained from what was stored at power-up by the W frames received so far, in order: W<m> appends m if the 2048 bytes suffice and is ignored otherwise, W alone erases all; moves, queued and immediate instructions, questions and interrupts do not change it. At every moment (power cut): it contains the program as of the last frame or the one before, or a storing frame is just being executed and all instructions stored before are still in their places.", "quantifier": "all histories, all byte streams, every crash point", "why_tests_cant": "all interleavings, byte streams and crash points", "anchors": ["src/MRCPParser.cpp: parseCommand", "src/EEPromStorage.cpp: appendMessage, clear", "src/main.cpp: loop"]}
{"id": "C93", "title": "Replay of the stored program by the running controller", "statement": "As long as no W frame arrives, the instructions started from the storage after power-up are the stored ones except the first (C17), in order and cyclically, whatever else happens; and the same from any later moment on with the program of that moment, beginning somewhere in it.", "quantifier": "all histories, all byte streams", "why_tests_cant": "unbounded histories", "anchors": ["src/MRCPParser.cpp: process", "src/EEPromStorage.cpp: getNextMessage"]}
{"id": "C94", "title": "The stored program survives power cycles", "statement": "However often the controller is switched off (between two passes) and on again, the storage contains the program as of all W frames received in all its lives, and after every power-up that program (without its first instruction) is replayed until a W frame arrives.", "quantifier": "all sequences of lives", "why_tests_cant": "unbounded sequences of histories", "anchors": ["src/MRCPParser.cpp: MRCPParser::MRCPParser", "src/EEPromStorage.cpp"]}
{"id": "C95", "title": "The stored program is executed again and again", "statement": "If the controller takes its instructions from the storage, which contains at least two, and from some moment on no frame concerning queue or storage and no immediate instruction that does more than ask arrives, then every stored instruction except the first is started again and again. Conditions: servos left alone arrive (for the kit with a careful host: no positive speed below 1/1000 rad/s), and again and again all inputs waited for are there and the waiting time is over.", "quantifier": "all endless histories", "why_tests_cant": "liveness over infinite executions", "anchors": ["src/main.cpp: loop", "src/MRCPParser.cpp: process", "src/EEPromStorage.cpp: getNextMessage", "src/RobotController.cpp: process"]}
{"id": "C96", "title": "A careful host and power failures", "statement": "With a careful host, starting with an empty or careful storage, the firmware of the kit never runs into undefined behaviour and all its numbers stay finite, however often it is switched off and on, at any moment except while a storing frame is being executed. (During that the claim is false: the length byte is written before the text and the terminator.)", "quantifier": "all sequences of lives, every power-off moment", "why_tests_cant": "unbounded sequences of histories with arbitrary cut points", "anchors": ["src/EEPromStorage.cpp: appendMessage", "src/MRCPParser.cpp", "src/main.cpp"]}
{"id": "C97", "title": "A host can read everything that is sent", "statement": "Numbers printed with two decimals: a host that ignores everything outside of frames and reads every frame by the rules of the protocol (B<free>, N0<n>, N1<n>, answers: optional N1<n> and a blank, then letter and number for each value) understands exactly what the controller said, in order, as long as no error text is logged.", "quantifier": "all histories", "why_tests_cant": "all messages with all numbers", "anchors": ["src/MRILParser.cpp: sendMessage, parse, process", "src/MRCPParser.cpp: sendMessage, sendFreeBuffer"]}
{"id": "C98", "title": "Answers are true", "statement": "Whenever an answer is sent, it answers in order what the instruction started last asks for, with its number; every angle and pose coordinate in it is computed from positions of the six arm servos (or the additional axis) read since that instruction was started, the speed is the one last set, and the movement method the one last chosen.", "quantifier": "all histories, all instructions", "why_tests_cant": "all histories of instructions and servo movements", "anchors": ["src/MRILParser.cpp: parse", "src/RobotController.cpp: getCurrentPose, getCurrentLogicalAngle, getMaxVelocity"]}
{"id": "C99", "title": "Every question is answered", "statement": "Between the start of an instruction that asks for something and the start of the next instruction exactly one answer is sent; an instruction that asks for nothing is not answered.", "quantifier": "all histories, all instructions", "why_tests_cant": "all histories", "anchors": ["src/MRILParser.cpp: parse"]}
{"id": "C100", "title": "A host that names no crawling speed is always served", "statement": "If the host is careful (C81) and never names a speed between 0 and 1/1000, and the servo interrupt never falls between the reading of an arm servo for its (slow) speed and the store of its new target, then the arm of the kit comes to rest whenever no instruction begins any more, the queue is worked off, every numbered instruction is reported as finished, everything a counting host sends is executed, stored programs run for ever, and a move in the queue goes where it was told to go — whatever speeds the firmware computes for the single servos. Without the condition on the interrupt this is false: the arm can wait for ever.", "quantifier": "all byte streams of such a host, all schedules of interrupts, inputs and clock, all stored programs", "why_tests_cant": "infinite histories and all interleavings; a servo speed can be arbitrarily small although the commanded speed is not", "anchors": ["src/RobotController.cpp: process (START_MOVE)", "src/VarSpeedServo.cpp: process, setTargetRadAngle, setCurrentAngleVelocity"]}
{"id": "C101", "title": "Memory safety of the running device", "statement": "As long as every frame fits and every instruction falls into commands of at most 19 characters with existing axes and pins (at most ten input conditions, none in immediate instructions), the device never accesses memory outside its arrays and never uses an uninitialised variable, whatever else the host sends (any numbers, no numbers, blanks, commas, comments, unknown letters, unreachable poses, speed zero) and whatever its storage legally contains; the only operation that can still go wrong is the conversion of the number of parts of a line to an integer.", "quantifier": "all histories of the whole device, all byte streams of that class, any arithmetic including binary32, any robot", "why_tests_cant": "all byte streams, all timings, all arithmetics", "anchors": ["src/MRILParser.cpp: parse", "src/MRCPParser.cpp: parseChar, process", "src/IOLogic.cpp: addCondition", "src/RobotController.cpp: process"]}
{"id": "C102", "title": "An illegible instruction is fatal", "statement": "Once the device has started an instruction that does not fall into executable commands (for example one naming axis 8, a pin command without pin digit, or a command of 20 characters), it never completes the pass: the main loop never begins another pass and no other instruction is started.", "quantifier": "all histories, all instruction texts outside the class of C101", "why_tests_cant": "undefined behaviour of the C++ program; all environments", "anchors": ["src/MRILParser.cpp: parse", "src/IOLogic.cpp: addCondition, setOutput"]}
{"id": "C103", "title": "Without lines nothing undefined happens", "statement": "If every frame fits, every instruction falls into executable commands, and the straight-line interpolation is never used (no M1; every instruction that gives the arm a target says M0, since the device powers up with lines selected), then the device never does anything undefined: no access outside its arrays, no uninitialised variable, no conversion of NaN or infinity to an integer; whatever numbers are sent, including none at all, NaN-producing texts and speed zero.", "quantifier": "all histories of the whole device, all byte streams of that class, all timings, inputs and interrupts, any robot, any arithmetic including binary32", "why_tests_cant": "all byte streams and timings, all arithmetics", "anchors": ["src/MRILParser.cpp: parse", "src/RobotController.cpp: process"]}
{"id": "C104", "title": "Joint moves in single precision produce numbers only", "statement": "On the robot kit, in IEEE single precision with any math library: if every frame is legible, the instructions move the arm by joint angles only (no pose commands with a value, M0 with every move) and numbers are written with digits, '.' and '-' (any size, also malformed or missing; any speed including zero and negative ones), then nothing undefined happens, no NaN is ever stored as the target or speed of an arm servo, and every arm servo stays within its configured angles up to a hundred-thousandth of a radian and its pulse width within the calibration. Every numbered instruction started is then reported as completed, if no immediate instruction follows and no requested servo speed is positive and below 1/1000 rad/s.", "quantifier": "all histories of the whole device, all byte streams of that class, all timings, inputs and interrupts, all math libraries", "why_tests_cant": "all byte streams, timings and rounding results", "anchors": ["src/MRILParser.cpp: parse", "src/RobotController.cpp: process", "src/VarSpeedServo.cpp: process", "config/mp-robot-kit.h"]}
{"id": "C105", "title": "In single precision the arm is where it was told", "statement": "On the robot kit, in IEEE single precision with any math library, with a host that moves it by joint angles (see C104): when an instruction that told all six angles with M0 is reported as finished, or the next one starts, and nothing else was started in between, then, if the told angles are within the ranges by 1e-5 radians, every arm servo has been seen where it has to be for these angles, to 1.1e-4 radians, and has not been touched since; if they are outside by 1e-5 radians no arm servo was touched; in any case one of the two. The same holds for courses of moves that tell some of the axes. A numbered instruction of this kind taken from queue or storage is reported, if no immediate instruction follows and no positive speed below 1/1000 rad/s is stored, and by then the arm has been seen there.", "quantifier": "all histories of the whole device, all instruction texts and byte streams of that class, all timings, inputs and interrupts, all math libraries", "why_tests_cant": "all byte streams, timings, rounding results and start positions", "anchors": ["src/MRILParser.cpp: parse", "src/RobotController.cpp: process", "src/VarSpeedServo.cpp: process, atTargetAngle", "config/mp-robot-kit.h"]}
{"id": "C106", "title": "A host that never makes the device wait gets everything executed", "statement": "If no instruction sent or stored contains the commands I or D, then between two rounds of the main loop the device is waiting neither for an input nor for a time, so the fairness condition of the liveness properties (again and again a round during which everything waited for is there) needs only a clock that runs. Consequently on the robot kit, with a careful host that asks for no speed between 0 and 1/1000, counts the free space, uses the queue only, and never waits: every numbered instruction sent is executed and reported as finished before any other begins; if it is a joint move (M0, six angles within the ranges) the arm has then been seen at these angles; if it is a straight move (M1, six coordinates) the arm has then gone the straight way to the pose told, point by point, or stopped at a point because the next one is out of reach or beyond the ranges. Immediate instructions that only ask may be sent at any time.", "quantifier": "all endless histories of the whole device, all byte streams of that class, all timings and inputs, all starting positions of the schedule; the first part for any robot and any arithmetic", "why_tests_cant": "a liveness property over all endless schedules and byte streams", "anchors": ["src/MRILParser.cpp: process, parse", "src/WaitController.h: isDone", "src/MRCPParser.cpp", "src/RobotController.cpp: process"]}
{"id": "C107", "title": "Single precision: everything a joint-angle host sends is executed, without assumptions about computed speeds", "statement": "On the robot kit, in IEEE single precision with any math library whose square roots are not negative: the host moves the arm by joint angles only (see C104) and never asks for a speed between 0 and 1/1000 degrees per second, and the servo interrupt never falls into the command of a servo that is given a positive speed below 1/1000 rad/s. Then, whatever speeds the firmware computes: the arm comes to rest whenever no instruction begins any more; every numbered instruction from queue or storage is reported as finished; the queue is worked off; everything a counting host sends is executed; a stored program runs forever (fairness as in C78). If the host also never makes the device wait (C106), counts the free space and uses the queue only: every numbered instruction sent is executed and reported before any other begins, and if it tells six angles (M0) within the ranges by 1e-5 radians, the arm has by then been seen at these angles to 1.1e-4 radians. Immediate instructions that only ask may be sent at any time.", "quantifier": "all endless histories of the whole device, all byte streams of that class, all timings, inputs and interrupts of that class, all math libraries", "why_tests_cant": "a liveness property over all endless schedules, byte streams and rounding results", "anchors": ["src/RobotController.cpp: process", "src/VarSpeedServo.cpp: process, atTargetAngle, setTargetRadAngle", "src/MRILParser.cpp: parse, process", "src/MRCPParser.cpp", "config/mp-robot-kit.h"]}
{"id": "C108", "title": "A finished instruction leaves the arm at rest", "statement": "On the robot kit, with a careful host (C100) that gives immediate instructions only while the arm is at rest, and a servo interrupt that never falls into the command of a servo: at the moment the device reports an instruction as finished, or starts the next one from queue or storage, every servo of the arm is at its target (to a millionth of a radian), and it stays there, whatever the interrupts do, until the device stores something into that servo again. The same holds in IEEE single precision, with any math library, if the host moves the arm by joint angles (C104, C107).", "quantifier": "all endless histories of the whole device, all byte streams of that class, all timings, inputs and interrupts of that class, all later times", "why_tests_cant": "all histories, and the actual state of the servos (not what the main loop read some time before) at every later time", "anchors": ["src/RobotController.cpp: process, atTargetAngle", "src/VarSpeedServo.cpp: process, atTargetAngle, setTargetRadAngle", "src/MRILParser.cpp: process", "config/mp-robot-kit.h"]}
{"id": "C109", "title": "When a move is reported the arm is where it was told, and remains there", "statement": "In the setting of C108: when an instruction from queue or storage that told all six angles with M0, within the ranges, is reported as finished, or the next one starts, and nothing else was started in between, then the arm is at these angles to 1.1e-4 radians, at that moment and at every later time before a servo is commanded again. If it told all six coordinates of a pose within reach, the arm is at angles that put the tool at the position and orientation told. If the host counts the free space, uses the queue only and never makes the device wait, every numbered move to six angles that it sends is executed and reported, and from the report on the arm is there. For joint moves the same holds in IEEE single precision, to 1.3e-4 radians, for angles within the ranges by 1e-5. Instructions that leave the arm alone (questions, waiting, inputs, outputs, additional axes) may begin at any time meanwhile.", "quantifier": "all endless histories of the whole device, all instruction texts and byte streams of that class, all timings, inputs and interrupts of that class, all later times", "why_tests_cant": "all histories, instruction texts and later times; the state of the servos themselves", "anchors": ["src/RobotController.cpp: process", "src/VarSpeedServo.cpp: process", "src/MRILParser.cpp: parse, process", "src/MRCPParser.cpp", "config/mp-robot-kit.h"]}
{"id": "C110", "title": "Immediate instructions given while everything is finished count like queued ones", "statement": "Call the device calm when nothing has begun yet, or nothing has begun since its last report of completion. While it is calm it stores nothing into a servo of the arm and reports nothing. An immediate instruction that begins while the device is calm does exactly what one from the queue does: if it tells angles, or a pose (M0), or a straight line (M1), then by the time it is reported as finished the arm has been sent there and seen there (or it was refused, or was there already), as in C84-C86; on the robot kit (in the setting of C108) the arm is at rest whenever the device is calm, and from the report of an immediate move of that kind the arm is at the angles told, as in C109, also in IEEE single precision. Instructions that leave the arm alone (questions, waiting, inputs, outputs, additional axes) may begin at any time meanwhile.", "quantifier": "all endless histories of the whole device, all instruction texts and byte streams of that class, all timings, inputs and interrupts of that class, all later times", "why_tests_cant": "all histories, instruction texts and later times", "anchors": ["src/MRILParser.cpp: parse, process", "src/MRCPParser.cpp: parseCommand", "src/RobotController.cpp: process"]}
{"id": "C111", "title": "Completion of immediate instructions is reported", "statement": "A numbered instruction begins, from whatever source, and the next immediate instruction (if any) begins only after some report of completion. Then, under the conditions of C78 on servos, inputs and waiting times, its completion N1<n> is reported, before any other instruction begins; and the first N1 after it is its own. Immediate instructions that only ask may be sent at any time.", "quantifier": "all endless histories, all instructions of that class, any arithmetic in which servos left alone arrive", "why_tests_cant": "a liveness property over all endless schedules", "anchors": ["src/MRILParser.cpp: parse, process", "src/MRCPParser.cpp: process, parseCommand"]}
{"id": "C112", "title": "A host that waits for each report has every immediate instruction executed", "statement": "A host that counts only what passes over the line: whenever it has sent an immediate instruction (E...), the device had sent as many reports of completion (N1...) as instructions were sent before it; the storage is empty and not used. Then immediate instructions begin only while everything begun is reported as finished. Every immediate instruction sent is started; every numbered one is reported as finished before any other begins (conditions of C78). On the robot kit, with a careful host that never makes the device wait and interrupts that do not fall into the command of a servo: every numbered immediate move to six angles (M0, within the ranges) is executed and reported, and from the report on the arm is at these angles until a servo is commanded again; for a pose within reach the tool is at the pose told; for a straight line (M1) the arm has gone the straight way. For joint moves the same holds in IEEE single precision with any math library whose square roots are not negative. Immediate instructions that only ask may be sent at any time.", "quantifier": "all endless histories of the whole device, all instruction texts and byte streams of that class, all timings, inputs and interrupts of that class, all later times", "why_tests_cant": "safety and liveness over all endless schedules and byte streams; needs a counting argument over the whole history", "anchors": ["src/MRCPParser.cpp: parseChar, parseCommand, process", "src/MRILParser.cpp: parse, process", "src/RobotController.cpp: process", "src/main.cpp: loop", "config/mp-robot-kit.h"]}
{"id": "C113", "title": "How exactly the tool is where it was told to be", "statement": "The robot kit, with a careful host that asks for no crawling speed and interrupts that do not fall into the command of a servo (conditions of C110). An instruction that names all six coordinates of a pose and M0, the pose being one the kit can take in its ordinary posture (joint angles within the ranges, shoulder less than 90 degrees forward, elbow at most 90 degrees, wrist in front of the base axis, hand not in line with the forearm). From the moment it is reported as finished until a servo is next commanded, the tool is within 0.0113 cm of the position told and each of its axes points in the direction told up to 7e-4 in every coordinate. The same holds for six joint angles told: the tool is where these angles put it. Every numbered move of this kind sent by a host that takes turns (C112) or by a host that counts the free space of the queue (C106) is executed and reported, with this accuracy. In IEEE single precision, for any math library, the same holds for joint angles, with 0.0133 cm and 8e-4. Instructions that leave the arm alone (questions, waiting, inputs, outputs, additional axes) may begin at any time meanwhile.", "quantifier": "all endless histories of the whole device, all poses the kit can take in that posture, all instruction texts and byte streams of that class, all timings and interrupts of that class, all later times", "why_tests_cant": "the bound is a worst case over a continuum of poses and all schedules of interrupts; it needs the inverse kinematics to be a two-sided inverse and a Lipschitz bound of the forward kinematics", "anchors": ["src/RobotController.cpp: process, setTargetPose", "src/Kinematic.cpp: inverse, forward", "src/VarSpeedServo.cpp: process, setTargetRadAngle", "src/main.cpp: loop", "config/mp-robot-kit.h"]}
{"id": "C114", "title": "Where the tool is after a straight move", "statement": "The robot kit in the setting of C110. An instruction that names all six coordinates of a pose and M1 (straight line). From the moment it is reported as finished until a servo is next commanded, one of four things holds, and the geometry decides which: the arm is at angles that put the tool at the pose told (to 1.1e-4 radians per joint); or it is at an intermediate point of the straight way from where the tool was, at parts shorter than half a unit, and the next point of the way is out of reach or its angles are beyond the ranges; or it is where it was, because the first point of the way cannot be taken; or it is where it was, because the pose is out of reach. If the kit can take every point of the straight way in its ordinary posture, the tool is within 0.0113 cm of the pose told, with directions to 7e-4. Every numbered straight move sent by a host that takes turns (C112) or counts the free queue space (C106) is executed, reported, and ends this way. Instructions that leave the arm alone (questions, waiting, inputs, outputs, additional axes) may begin at any time meanwhile.", "quantifier": "all endless histories of the whole device, all poses, all instruction texts and byte streams of that class, all timings and interrupts of that class, all later times", "why_tests_cant": "the case is decided by the geometry of a continuum of ways; the start of the way is read while the arm may still settle by microradians; all schedules of interrupts", "anchors": ["src/RobotController.cpp: process, setTargetPose", "src/Kinematic.cpp: inverse, forward", "src/VarSpeedServo.cpp: process", "src/main.cpp: loop", "config/mp-robot-kit.h"]}
{"id": "C115", "title": "A working area in which every session succeeds", "statement": "The robot kit, powered up at its home position with an empty storage, and a host whose every instruction names a complete pose in the box 12 <= x <= 19, |y| <= 6, 6 <= z <= 18.5 (cm) with the tool pointing straight down, turned by at most 30 degrees, as a joint move (M0) or a straight move (M1), in any order and number. No such move is ever refused or stops short: each one that begins and is reported finds the tool, from the report until a servo is next commanded, within 0.0113 cm of the position told, directions within 7e-4. Every numbered move sent by a host that takes turns (C112) or counts the free queue space (C106) is executed, reported, and ends there. Between the moves, and during them, instructions that leave the arm alone may be given.", "quantifier": "all endless histories of the whole device, all sequences of moves in the box, all instruction texts and byte streams of that class, all timings and interrupts of that class, all later times", "why_tests_cant": "a continuum of poses and of straight ways between them, unbounded sessions in which each move starts where the previous one really ended, all schedules of interrupts", "anchors": ["src/RobotController.cpp: process, setTargetPose", "src/Kinematic.cpp: inverse, forward", "src/VarSpeedServo.cpp: process", "src/main.cpp: loop", "config/mp-robot-kit.h"]}
{"id": "C116", "title": "The start screen shows the arm", "statement": "For every robot geometry the start screen draws the arm: no undefined number conversion is made, the five links are drawn one after the other to scale, and the drawing lies on the 128x32 display.", "quantifier": "all robot geometries", "why_tests_cant": "a continuum of geometries", "anchors": ["src/Display.h: displayRobotGeometry", "src/main.cpp: setup", "config/mp-robot-kit.h: geometry", "config/mp-robot-d.h: geometry"]}
{"id": "C117", "title": "Asking after a move", "statement": "After an instruction is reported as finished, nothing moves the arm until an instruction begins that names a place for it; questions, speeds, methods, waiting and outputs leave it alone. A question is answered before anything else begins, with exactly what it asks for. For the robot kit and a careful host, the answer after a move agrees with what the move told: the angles to 0.007 degrees, the position of the tool to 0.012 units.", "quantifier": "all histories, all robots and arithmetic for the first two parts; all moves to angles or reachable poses, all questions and all schedules of the kit for the last", "why_tests_cant": "all histories, interleavings of interrupts and a continuum of targets", "anchors": ["src/MRILParser.cpp: parse", "src/RobotController.cpp: getCurrentPose, getCurrentLogicalAngle, process", "src/Kinematic.cpp: forward", "src/VarSpeedServo.cpp: process"]}
{"id": "C118", "title": "Asking does not disturb", "statement": "A host may ask at any time, also during a move, with immediate questions (E followed by letters without numbers, optionally with an instruction number) or for the free queue space (B), and may send empty lines, comments and over-long frames. Whatever happens, it could have happened in the same way had these lines never been sent: there is a history of the same system without them, with the same readings, stores into servos, messages, outputs, starts of instructions, interrupts and clock in the same order, except for the bytes of the questions, their beginning, looks at the servos and the answers; it ends with the same state of the controller, the servos, the pins and the storage. Every question that does not end with its number is answered by a reply.", "quantifier": "all histories of the whole device (any inputs, moves, queue and storage contents, interleavings with the interrupt), any number of such lines at any positions, any robot and arithmetic", "why_tests_cant": "a relation between pairs of histories (non-interference), over all histories and positions of the questions", "anchors": ["src/MRCPParser.cpp: parseChar, parseCommand", "src/MRILParser.cpp: parse", "src/SerialIO.h: process", "src/main.cpp: loop"]}
{"id": "C119", "title": "The arm goes straight to where it is sent", "statement": "While the robot kit carries out a joint move (M0) to six angles or to a reachable pose, from the beginning of the instruction until a servo is commanded after its report, every servo is between the angle it had and the angle it is sent to, to 1e-6 radians, and never gets farther from it again by more than 2e-6: no overshoot, no detour, no turning back. In a straight move (M1) the arm goes in this way from each of the points at equal distances on the straight line to the next, until it is at the pose told or at a point whose successor cannot be taken; or it stays where it was.", "quantifier": "all moves and targets, all histories of a careful host, all schedules of interrupts that do not fall into the command of a servo, every moment during the move", "why_tests_cant": "a statement about every moment of every move, over a continuum of targets and all interleavings of main loop and interrupt", "anchors": ["src/VarSpeedServo.cpp: process, setTargetRadAngle, setCurrentAngleVelocity", "src/RobotController.cpp: process", "src/MRILParser.cpp: parse"]}
{"id": "C120", "title": "The arm never jumps", "statement": "For the robot kit and a careful host, nothing but the servo interrupt changes the position of a servo, and one interrupt turns a servo by no more than it may turn in 20 ms at its maximum speed.", "quantifier": "all histories of a careful host, all schedules of interrupts that do not fall into the command of a servo, every step", "why_tests_cant": "a bound on every step of every history, over all interleavings", "anchors": ["src/VarSpeedServo.cpp: process, setTargetRadAngle, setCurrentAngleVelocity", "src/RobotController.cpp: process"]}
{"id": "C121", "title": "The arm keeps the speed it is told", "statement": "When the robot kit carries out a joint move (M0) to six angles or to a reachable pose at a speed of V degrees per second, then on the way no servo turns faster than its share of V in proportion to how far it has to turn (the axis with the furthest way at V, the others slower), to 2e-6 radians per interrupt; a move by 0.01 radians or more is not reported as finished before the furthest turn takes at the speed told, to 0.1%; and when this time, or the time the slowest servo needs at its maximum speed, has passed since the servos were commanded, the arm is where it was told to go.", "quantifier": "all positive speeds, all moves and targets within the ranges, all positions before, all histories of a careful host (queue, storage, immediate instructions begun at rest), all schedules of interrupts that do not fall into the command of a servo", "why_tests_cant": "a bound on every step and on the duration of every move, over all speeds, positions and interleavings", "anchors": ["src/RobotController.cpp: process (START_MOVE), setMaxVelocity", "src/VarSpeedServo.cpp: process, setCurrentAngleVelocity, setTargetRadAngle", "src/MRILParser.cpp: V"]}
{"id": "C122", "title": "On straight moves the tool keeps the speed it is told", "statement": "When the robot kit carries out a straight move (M1) to a pose at a speed of V units of length per second, then it passes the points that divide the line from where the tool was into equal parts (shorter than half a unit) one after the other, all of them or up to one that cannot be taken; on the way from one point to the next no servo turns faster than its turn divided by the time the part takes at the speed V, to 5e-6 radians per interrupt; no part takes less time than it takes at the speed told, to 1% (unless the parts are shorter than a tenth of a unit); so the whole move is not reported as finished before the way to the last point reached, less half a unit, takes at that speed, to 1%. Or the arm stays where it was.", "quantifier": "all positive speeds, all poses told, all positions before, all histories of a careful host (queue, storage, immediate instructions begun at rest), all schedules of interrupts that do not fall into the command of a servo", "why_tests_cant": "a bound on every step and on the duration of every part of every straight move, over all speeds, positions and interleavings", "anchors": ["src/RobotController.cpp: process (LINEAR, START_MOVE), setMaxVelocity", "src/VarSpeedServo.cpp: process, setCurrentAngleVelocity, setTargetRadAngle", "src/MRILParser.cpp: V, M"]}
{"id": "C123", "title": "Settings an instruction does not name stay in force", "statement": "The movement method and the speed hold until they are named again: M1 and the speed 10 after power-up, then whatever was named last, in an instruction from the queue, from the storage or begun at once. An instruction that names a place but neither M nor V is carried out by the method and at the speed in force: with M0 in force all angles go there together and no angle turns faster than its share of the speed, with M1 in force the tool goes along the straight line and keeps the speed. For a host that uses only the queue of the robot kit: every numbered move sent is executed and reported as finished, with the method and the speed named last in what was sent up to and including it.", "quantifier": "all histories, all instructions and all instructions before; for the kit: all histories of a careful host, all schedules of interrupts that do not fall into the command of a servo", "why_tests_cant": "what is in force depends on the whole history of instructions, of any length and from three sources, and must survive everything else that happens in between", "anchors": ["src/MRILParser.cpp: parse (M, V)", "src/RobotController.cpp: setMovementMethod, setMaxVelocity, process", "src/main.cpp: setup (setMaxVelocity)"]}
{"id": "C124", "title": "What a host reads after a move is what it told", "statement": "Whenever a message has been sent, the last frame a host finds in the bytes it has received is this message, whatever was printed before (error texts, durations). For the robot kit and a careful host, numbers printed to two decimals (ties in either direction): the host tells a move, asks after it is finished, and reads in the bytes received an answer with exactly the names asked for; the angles are those told to 0.012 degrees, the position of the tool is the one told to 0.017 units.", "quantifier": "all histories and all ways of printing numbers for the first part; all moves to angles or reachable poses, all questions, all printers to two decimals, all histories of a careful host of the kit for the second", "why_tests_cant": "all histories, a continuum of targets, all questions and interleavings, down to the bytes on the line", "anchors": ["src/MRCPR.h: sendMessage", "src/SerialIO.h: transmit", "src/MRILParser.cpp: parse (reads), finish", "src/RobotController.cpp: getCurrentPose, getCurrentLogicalAngle"]}
{"id": "C125", "title": "Questions for the movement method and the speed are answered with what is in force", "statement": "The answer of an instruction says for every M and V without number, in the order of the questions, the movement method and the speed in force at that point: what was named last, in this instruction or an earlier one, or else what holds at power-up (straight moves, 10). For the robot kit and a host that counts the free space: it sends any instructions and then one that ends with a question; in the bytes it receives it reads exactly the names it asked for, the movement method it named last, and the speed it named last to half of the second decimal.", "quantifier": "all histories, all arithmetics and all instructions for the first part; all programs and questions for the queue, all printers to two decimals, all histories of a counting host of the kit for the second", "why_tests_cant": "all sequences of instructions, all interleavings, down to the bytes on the line", "anchors": ["src/MRILParser.cpp: parse (M, V)", "src/RobotController.cpp: setMaxVelocity, getMaxVelocity, setMovementMethod, getMovementMethod", "src/main.cpp: setup", "src/MRCPR.h: sendMessage"]}
{"id": "C126", "title": "The pins are driven exactly as told", "statement": "Between the beginning of an instruction and the beginning of the next one exactly that is done to the pins of the board which the commands O and I of the instruction say, in their order: O<pin><0|1> makes the pin an output and switches it off or on, I<pin><state> makes it an input with the pull resistor against the state waited for; nothing else ever touches a pin, in particular nothing before the first instruction. As soon as an instruction has begun all of it is done, before anything else begins, and a pin switched on or off stays so as long as no instruction concerns it. For the robot kit and a host that counts the free space: everything it sends for the queue is done to the pins, in order, each once, and when it sends nothing more it stays so for ever.", "quantifier": "all histories, all arithmetics, all instructions with two digits after I and O; for the last part all programs for the queue that do not wait, all histories of a counting host of the kit", "why_tests_cant": "all sequences of instructions, all interleavings, all times", "anchors": ["src/IOLogic.cpp: IOLogic::setOutput, IOLogic::addCondition", "src/MRILParser.cpp: parse (I, O)", "config/mp-robot-kit.h: pinMap"]}
{"id": "C127", "title": "An instruction is not over before everything it waits for has happened", "statement": "When an instruction from the queue or the storage has begun, then neither it is reported as finished nor does the next instruction from queue or storage begin before (1) all inputs it names with I were read, one directly after the other, each with the level waited for, and (2) if it names a waiting time with D, the clock was read at least twice since and more than that time passed in between (the last D counts), provided the end of the wait fits the 32 bits of the clock. Immediate instructions that do not wait themselves may come in between and change nothing. In terms of the surroundings: each input had its level at some moment between the two, and more than the named time went by.", "quantifier": "all histories, all arithmetics, all instructions with two digits after I, all input and clock behaviours (for the time on the wall: a clock that does not run backwards and does not roll over meanwhile)", "why_tests_cant": "all sequences of inputs, clock readings and instructions, all interleavings", "anchors": ["src/IOLogic.cpp: addCondition, isDone", "src/WaitController.h: waitMs, isDone", "src/MRILParser.cpp: parse (I, D), process", "src/MRCPParser.cpp: process"]}
{"id": "C128", "title": "Waiting ends when the surroundings oblige", "statement": "If again and again there is a pass of the main loop during which the inputs named by the last instruction have their levels and the clock is past the time named by the last D, then the controller is never stuck in a wait: again and again there is a pass in which everything it waits for is there. For the robot kit: a host that counts the free space may send instructions that wait for inputs and times for the queue; in such surroundings each is executed, in order, and every numbered one is reported as finished, after everything it waits for has happened.", "quantifier": "all histories and arithmetics for the first part, with instructions of two digits after I and a number after D and immediate instructions that do not wait; all programs for the queue and all histories of a counting host of the kit for the second", "why_tests_cant": "liveness: all infinite histories, all behaviours of inputs and clock", "anchors": ["src/IOLogic.cpp: addCondition, isDone", "src/WaitController.h: waitMs, isDone", "src/MRILParser.cpp: parse (I, D), process", "src/MRCPParser.cpp: process"]}
{"id": "C129", "title": "An additional axis goes where it is told, and stays there", "statement": "When an instruction contains R6 or R7 with an angle and no later command of it names that axis again, there is a time from which on the axis stands exactly at that angle, whatever is done to the arm, to the speed or to other axes meanwhile, as long as no other instruction names it; and a later question for it is answered with exactly the number that was sent. For the robot kit and a host that counts the free space: every R6 or R7 sent for the queue is obeyed in this way, from the bytes on the line to the servo.", "quantifier": "all configurations, histories, interrupt schedules and instruction texts whose angles for these axes are at most a full turn and whose speeds are not between 0 and 1/1000; exact arithmetic; all queue programs of a counting host for the kit", "why_tests_cant": "liveness over all infinite histories and interrupt schedules, with speed changes in the middle of the movement", "anchors": ["src/AdditionalAxisController.h", "src/MRILParser.cpp: parse (R, V)", "src/VarSpeedServo.cpp: setTargetRadAngle, setCurrentAngleVelocity, process", "config/mp-robot-kit.h"]}
{"id": "C130", "title": "A pass of the main loop is short, and the controller reacts promptly", "statement": "The main program never stays long in one place: between two passes of the main loop it makes at most 1299 accesses to servos, clock, pins, serial line and EEPROM, whatever was received and stored, and start-up makes at most 13. So L bytes waiting on the serial line have been read after 1299*(L/30+2) accesses, however much arrives meanwhile, and every immediate instruction whose line has arrived has been begun after 1299*(L/30+3)+2 accesses, whatever the arm does, whatever the controller waits for, and whatever is in queue or storage.", "quantifier": "all configurations, EEPROM contents, byte streams, interrupt and clock schedules, histories and points in them", "why_tests_cant": "an upper bound over all inputs, stored contents and histories; tests can only observe the durations of the runs they make", "anchors": ["src/main.cpp: loop, setup", "src/SerialIO.h: process", "src/MRCPParser.cpp: parseChar, process", "src/MRILParser.cpp: parse, process", "src/RobotController.cpp: process", "src/IOLogic.cpp: isDone"]}
{"id": "C131", "title": "The device says exactly what the instructions make it say", "statement": "Free-space reports aside, what the device sends is determined by the instructions it works off, and by nothing else: N0 for every N; then, if the last command of the instruction is a question, one answer, with the number of the instruction, about exactly the things asked for, in their order (for M: the method chosen last); otherwise N1, if the instruction has a number that is not its last command. When the next instruction begins this is complete; at any time nothing else was said. For the robot kit and a host that counts the free space: from some moment on the device has said exactly the conversation about the instructions sent, and nothing more. So timing does not matter: two histories with the same instructions, but different interrupts, clocks, arrival times and inputs, end with the same conversation and the same operations on the pins.", "quantifier": "all configurations, histories without immediate instructions, queue and storage contents of simple instructions (axes and methods are digits); all pairs of endless histories of a counting host for the kit", "why_tests_cant": "a relation between all pairs of infinite histories: a test sees one interleaving", "anchors": ["src/MRILParser.cpp: parse (N, questions), process", "src/MRCPParser.cpp: process", "src/MRILParser.h: commandNumber"]}
{"id": "C132", "title": "A controller left alone works off its stored program for ever", "statement": "A controller whose storage holds at least two instructions, and to which nobody sends instructions after power-up (questions for free space and empty frames are allowed), begins the stored instructions except the first, in order, again and again, and nothing else; at any time, what it has said is the beginning of the conversation about these rounds, and what it has done to the pins is the beginning of what their commands say. So of two controllers with the same stored program, at any two times, one has said the beginning of what the other has said, whatever the interrupts, clocks and inputs. For the robot kit (exact arithmetic, no waiting instructions, no crawling speeds, a running clock) it never stops: for every k a moment comes at which the first k instructions of the rounds are completely worked off, with exactly their conversation said and exactly their pin operations done, and the next one begins. Every numbered move of the program is reported as finished again and again, before anything else begins, and then the arm is at the angles told, or the tool at the pose told, until a servo is commanded again; every straight move goes the straight way.", "quantifier": "all configurations, stored programs and finite histories (order, conversation, pins); all endless histories of the kit and all k (it never stops)", "why_tests_cant": "infinitely many rounds, under every interleaving of interrupts with the main loop", "anchors": ["src/EEPromStorage.cpp: getNextMessage, getNumberOfMessages", "src/MRCPParser.cpp: process", "src/MRILParser.cpp: parse, process", "src/RobotController.cpp: process"]}
{"id": "C133", "title": "The whole conversation follows the rules, interruptions included", "statement": "Whatever is sent, for whatever destination, and however immediate instructions interrupt the others: what is heard of the controller (the instructions it begins, immediate or not, and the N0, N1 and answers it sends) is a conversation that follows these rules, from power-up on, at any time. An instruction begins only when everything is said about the one begun before it: one N0 for each of its N commands, and, exactly if its last command is a question, one answer, with its number, about what its questions ask. If its last command is an order, N1 with its number is due from then on, instead of whatever was due before (so an immediate order takes the place of a move under way, whose N1 is never sent, while an immediate question leaves it due). An instruction from the queue or the storage does not begin while an N1 is due. N1 is said only when due, with the number due, once, and not in the middle of what is said about another instruction. Between two passes of the main loop nothing remains to be said but the N1 due. Hence no number is reported finished more often than orders with it were begun, and there are exactly as many answers as questions begun.", "quantifier": "all configurations, arithmetics, initial memories, bytes on the line, interrupts and clocks; all histories whose instructions name axes and methods by one digit; every moment", "why_tests_cant": "every order of queued, stored and immediate instructions, arriving at any moment of any pass", "anchors": ["src/MRILParser.cpp: parse (sendMessage), process", "src/MRCPParser.cpp: process, parseChar", "src/IOLogic.cpp: isDone", "src/RobotController.cpp: isMoving"]}
{"id": "C134", "title": "A host that watches its program being worked off hears everything, once", "statement": "A host sends instructions for the queue, keeping count of the free space, and at any times in between questions for immediate execution (also while moves are under way), and then nothing more. Then there is a moment after which the controller says nothing more and begins nothing more, and by then it has begun exactly the instructions and the questions sent, each of both in the order sent; for every N command in them it has said N0 with that number once; for every number it has said N1 exactly as often as there are instructions with that number whose last command is an order; and every instruction whose last command is a question has been answered exactly once, with its number. When what is said, relative to the beginnings, is governed by C133.", "quantifier": "all endless histories without stored program in which servos left alone arrive and waits end (in particular the kit, in exact arithmetic and, for moves by joint angles, in single precision), all programs and questions, all moments at which they arrive", "why_tests_cant": "every program, every moment of every question, every interleaving of interrupts", "anchors": ["src/MRILParser.cpp: parse (sendMessage), process", "src/MRCPParser.cpp: process, parseChar", "src/RobotController.cpp: process", "src/RingBuffer.cpp: getMessage, putBytes"]}
{"id": "C135", "title": "No stale reports: an order given at once takes away the report of what it interrupts", "statement": "After an order for immediate execution has begun (an instruction whose last command is neither a question nor N), the controller sends no N1 for anything begun before it. Whatever is sent later, N1 n comes only if that order itself has the number n or an order with the number n begins after it. So a host may rely on it that an N1 after an immediate order is about that order or a later one; and it must not wait for the report of a move during which it tells, say, a speed: that report never comes (questions do not take it away, C134).", "quantifier": "all configurations, arithmetics and histories whose instructions name axes and methods by one digit; all orders and numbers; finite and endless histories", "why_tests_cant": "every later input and every moment of the interruption", "anchors": ["src/MRILParser.cpp: parse (end), process", "src/MRCPParser.cpp: parseCommand (E)"]}
{"id": "C136", "title": "Where the arm ends depends on the program sent, not on timing", "statement": "A counting host sends a program to the robot kit (empty storage, queue only). Take the last instruction that names a place for the arm: with M0 in force (named by it or earlier) and six angles within the ranges, or a pose the kit can take, the arm is at these angles to 1.1e-4 radians from some time on and for ever, whatever follows that names no place; with M1 it is at the end of its straight way. So two histories of the same program, with different interrupts, clocks, arrival times and inputs, end with every axis at the same angle, to 2.2e-4 radians.", "quantifier": "all programs (any instructions before, any that name no place after; the last one of all has a number or something follows), all speeds in force, all interleavings of interrupts, arrival of bytes, clock and inputs; pairs of histories", "why_tests_cant": "pairs of unbounded histories, every schedule, for ever after", "anchors": ["src/MRILParser.cpp: parse, process", "src/RobotController.cpp: process", "src/VarSpeedServo.cpp: process", "src/MRCPParser.cpp: parseCommand"]}
{"id": "C137", "title": "Rounding does not matter for what is said, done, and reached", "statement": "A counting host sends a program for the queue, and nothing else. From some time on, for ever, exactly the conversation about the program was said (C131) and exactly that was done to the pins which its commands say (C126): for every robot and arithmetic in which servos left alone arrive and again and again there is a pass in which everything waited for is there; in particular for the kit with a host whose instructions wait for inputs and times (C128), and for the kit in single precision moved by joint angles. So the kit computing in single precision and the kit computing exactly, sent the same program, with different interrupts, clocks, arrival times and inputs, end having said the same and done the same to the pins, with every axis at the same angle to 2.4e-4 radians.", "quantifier": "all programs of instructions with at most one number each, all interleavings, clocks and inputs; pairs of histories in different arithmetics; every libm whose square roots are not negative", "why_tests_cant": "pairs of unbounded histories in two arithmetics, every schedule, for ever after", "anchors": ["src/MRILParser.cpp: parse, process", "src/MRCPParser.cpp: parseCommand, process", "src/IOLogic.cpp", "src/RobotController.cpp: process", "src/VarSpeedServo.cpp: process"]}
{"id": "C138", "title": "Waiting does not matter for where the arm ends", "statement": "A host sends a program whose instructions may wait for inputs (I) and for times (D), and the surroundings oblige: what is waited for comes, and stays long enough to be seen. However long each wait takes, from some time on, for ever, the arm is where the last instruction that names a place told it to be: at the six angles, at the angles for the pose, or at the end of the straight way. Putting waits into a program, or taking them out, changes nothing about where the arm ends.", "quantifier": "all programs for the queue of the kit (any instructions before, also ones that wait, and afterwards any that name no place), all obliging surroundings, all clocks, arrival times and interrupts; exact numbers and single precision; endless histories", "why_tests_cant": "for ever; every length of every wait and every behaviour of the inputs", "anchors": ["src/MRILParser.cpp: parse, process", "src/WaitController.h: isDone", "src/IOLogic.cpp: isDone", "src/VarSpeedServo.cpp: process"]}
{"id": "C139", "title": "In the end everything is as the program says", "statement": "A host that counts free places sends a program for the queue and nothing else; its instructions may move the arm, move the additional axes, switch outputs, wait for inputs and for times, ask questions; whatever is waited for comes. Then from some time on, for ever, at once: exactly the conversation about the program was said (N0, answers, N1, in its order), exactly what its commands say was done to the pins, every joint is at the angle for the pose told last, and each additional axis is exactly where it was sent last.", "quantifier": "all such programs for the kit, all lengths of waiting, clocks, arrival times, interrupts and inputs that oblige; endless histories", "why_tests_cant": "for ever, all at once, for every program and every timing", "anchors": ["src/MRCPParser.cpp: parseChar, process", "src/MRILParser.cpp: parse, process", "src/RobotController.cpp: process", "src/AdditionalAxisController.h", "src/IOLogic.cpp: setOutput, addCondition, isDone", "src/WaitController.h: isDone", "src/VarSpeedServo.cpp: process"]}
{"id": "C140", "title": "In the end the arm is at the last place sent, also for immediate instructions", "statement": "A host that waits for the reports before it sends an immediate instruction, and sends immediate instructions only. The last numbered instruction that names a place for the arm is followed only by instructions that name none. Then, whatever was sent before, from some time on, for ever, the arm is at this place. It does not matter whether the instruction was sent at once or for the queue: the arm ends at the same angles.", "quantifier": "all sequences of immediate instructions of such a host for the kit, all clocks, arrival times and interrupts; endless histories; exact numbers, and joint moves in binary32 for every libm", "why_tests_cant": "for ever, for every history before and every timing", "anchors": ["src/MRCPParser.cpp: parseChar, process", "src/MRILParser.cpp: parse, process", "src/RobotController.cpp: process", "src/VarSpeedServo.cpp: process"]}
