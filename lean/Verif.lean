import Verif.Model.Num
import Verif.Model.Text
import Verif.Model.RingBuffer
import Verif.Model.Framer
import Verif.Model.Eeprom
import Verif.Model.Servo
import Verif.Model.Prog
import Verif.Model.Kinematic
import Verif.Model.Robot
import Verif.Model.IO
import Verif.Model.Mril
import Verif.Model.Mrcp
import Verif.Model.Config
import Verif.Spec.Queue
import Verif.Proof.RingBuffer
import Verif.Model.Exec
import Verif.Proof.Wp
import Verif.Props.Queue
import Verif.Spec.Framing
import Verif.Proof.Framing
import Verif.Props.Framing
import Verif.Props.Storage
import Verif.Spec.Instruction
import Verif.Proof.Mril
import Verif.Proof.MrilWp
import Verif.Props.IO
import Verif.Props.Mril
import Verif.Proof.Only
import Verif.Spec.Device
import Verif.Proof.System
import Verif.Proof.Pass
import Verif.Proof.Run
import Verif.Proof.Demo
import Verif.Props.System
import Verif.Proof.CoreWp
import Verif.Proof.Notice
import Verif.Model.Wire
import Verif.Spec.Wire
import Verif.Props.Notices
import Verif.Model.XR
import Verif.Proof.XR
import Verif.Model.ServoRun
import Verif.Props.Servo
import Verif.Model.ControllerRun
import Verif.Spec.Controller
import Verif.Proof.Controller
import Verif.Proof.Safe
import Verif.Proof.ControllerSeg
import Verif.Props.Controller
import Verif.Spec.Motion
import Verif.Proof.Motion
import Verif.Proof.DemoX
import Verif.Props.Motion
import Verif.Spec.Kinematics
import Verif.Proof.Kinematics
import Verif.Proof.Inverse
import Verif.Props.Kinematics
import Verif.Proof.RoundTrip
import Verif.Props.RoundTrip
import Verif.Proof.Coupling
import Verif.Props.Coupling
import Verif.Props.Safety
import Verif.Props.Units
import Verif.Model.Display
import Verif.Props.Display
import Verif.Props.Axes
import Verif.Props.Arrival
import Verif.Test.Conformance
import Verif.Model.RX
import Verif.Model.Binary32
import Verif.Proof.RX
import Verif.Props.Rounding
import Verif.Props.Rounding32
import Verif.Spec.Liveness
import Verif.Proof.Liveness
import Verif.Proof.Endless
import Verif.Props.Liveness
import Verif.Props.LivenessX
import Verif.Proof.Progress
import Verif.Props.Progress
import Verif.Proof.Schedule
import Verif.Proof.DemoL
import Verif.Props.LivenessDemo
import Verif.Spec.Host
import Verif.Proof.Host
import Verif.Proof.Careful
import Verif.Props.Host
import Verif.Spec.Told
import Verif.Proof.Told
import Verif.Proof.ToldInstr
import Verif.Proof.ToldLine
import Verif.Proof.ToldCourse
import Verif.Proof.ToldSeen
import Verif.Props.Told
import Verif.Props.ToldKit
import Verif.Props.ToldDemo
import Verif.Spec.Flow
import Verif.Proof.Flow
import Verif.Proof.Stream
import Verif.Proof.Now
import Verif.Props.Flow
import Verif.Props.Immediate
import Verif.Props.FlowLive
import Verif.Props.FlowDemo
import Verif.Proof.Mark
import Verif.Spec.Program
import Verif.Proof.Store
import Verif.Proof.Replay
import Verif.Props.Program
import Verif.Props.ProgramLive
import Verif.Props.ProgramDemo
import Verif.Props.ProgramKit
import Verif.Props.ProgramKitDemo
import Verif.Spec.Reading
import Verif.Props.Reading
import Verif.Props.Answers
import Verif.Props.Asked
import Verif.Props.LivenessR
import Verif.Props.RoundingLine
import Verif.Spec.Brisk
import Verif.Proof.Brisk
import Verif.Props.Brisk
import Verif.Props.BriskKit
import Verif.Props.BriskDemo
import Verif.Props.BriskRace
import Verif.Spec.Tokens
import Verif.Proof.Tokens
import Verif.Props.Tokens
import Verif.Spec.Legible
import Verif.Proof.Legible
import Verif.Props.Legible
import Verif.Spec.Joints
import Verif.Proof.Joints
import Verif.Props.Joints
import Verif.Spec.Angles
import Verif.Proof.Angles
import Verif.Props.Angles
import Verif.Proof.ToldAny
import Verif.Props.Told32
import Verif.Props.Told32Demo
import Verif.Spec.Line
import Verif.Props.LineKit
import Verif.Spec.Waiting
import Verif.Proof.Waiting
import Verif.Props.Waiting
import Verif.Props.WaitingDemo
import Verif.Proof.Span
import Verif.Spec.Brisk32
import Verif.Proof.Brisk32
import Verif.Props.Brisk32
import Verif.Props.Joint32
import Verif.Props.Joint32Demo
import Verif.Spec.Rest
import Verif.Proof.Rest
import Verif.Proof.RestTold
import Verif.Props.Rest
import Verif.Props.Rest32
import Verif.Props.RestDemo
import Verif.Proof.Calm
import Verif.Spec.Turns
import Verif.Proof.Turns
import Verif.Props.Turns
import Verif.Props.TurnsDemo
import Verif.Proof.Lipschitz
import Verif.Spec.Accuracy
import Verif.Props.Accuracy
import Verif.Props.AccuracyDemo
import Verif.Proof.LineEnd
import Verif.Spec.LineEnd
import Verif.Props.LineEnd
import Verif.Spec.Area
import Verif.Proof.Area
import Verif.Props.Area
import Verif.Props.AreaDemo
import Verif.Model.StartScreen
import Verif.Props.StartScreen
import Verif.Spec.ReadBack
import Verif.Proof.Stays
import Verif.Props.ReadBack
import Verif.Props.ReadBackDemo
import Verif.Spec.Asking
import Verif.Proof.Asking
import Verif.Proof.AskingRun
import Verif.Props.Asking
import Verif.Spec.Way
import Verif.Proof.Way
import Verif.Props.Way
import Verif.Props.WayLine
import Verif.Props.WayDemo
import Verif.Props.SpeedDemo
import Verif.Props.PaceDemo
import Verif.Props.InForce
import Verif.Props.InForceDemo
import Verif.Props.ReadOff
import Verif.Props.ReadOffDemo
import Verif.Spec.Settings
import Verif.Props.Settings
import Verif.Props.SettingsDemo
import Verif.Spec.Pins
import Verif.Props.Pins
import Verif.Props.PinsDemo
import Verif.Spec.Await
import Verif.Props.Await
import Verif.Spec.Oblige
import Verif.Props.Oblige
import Verif.Props.ObligeKit
import Verif.Props.ObligeDemo
import Verif.Proof.Does
import Verif.Spec.Gripper
import Verif.Props.Gripper
import Verif.Props.GripperKit
import Verif.Proof.Costs
import Verif.Spec.Prompt
import Verif.Props.Prompt
import Verif.Props.PromptDemo
import Verif.Spec.Talk
import Verif.Proof.Talk
import Verif.Props.Talk
import Verif.Props.TalkKit
import Verif.Spec.Unattended
import Verif.Props.Unattended
import Verif.Props.UnattendedDemo
import Verif.Spec.Dialogue
import Verif.Proof.Dialogue
import Verif.Props.Dialogue
import Verif.Spec.Watch
import Verif.Props.Watch
import Verif.Props.WatchKit
import Verif.Props.Stale
import Verif.Props.Final
import Verif.Props.Same
import Verif.Props.FinalWait
import Verif.Props.FinalWait32
import Verif.Spec.Everything
import Verif.Props.Everything
import Verif.Props.FinalTurns
