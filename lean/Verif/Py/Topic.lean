import Mathlib.Tactic.Common
import Mathlib.Data.List.Basic
import Mathlib.Data.List.Nodup

/-!
What a Python `Topic` is connected to.

Specification: a topic is connected under the name it reports; two topics meet exactly if their names are equal; the
class given, not the spelling of a name, decides the type; the capacity is the one asked for; a topic said to be on
the network is on the network.

Sources: /repo/horus_py/src/topic.rs:233-311, 368-445, 776-790, 1368-1419; /repo/horus_py/horus/__init__.py:600-700;
class names and `__topic_name__` from /repo/horus_py/src/messages.rs.

Simplifications: letters are ASCII; names that the shared-memory layer refuses are not modelled.
-/

namespace Horus.PyTopic

abbrev Str := List Char

/-- The message classes with a type of their own and their `__topic_name__` (topic.rs:233-311; messages.rs). -/
def podTable : List (String × Option String) :=
  [("CmdVel", some "cmd_vel"), ("Pose2D", some "pose"), ("Pose3D", some "pose3d"), ("Imu", some "imu"),
   ("Odometry", some "odom"), ("LaserScan", some "scan"), ("JointState", some "joint_states"),
   ("Clock", some "clock"), ("TimeReference", some "time_reference"), ("Twist", some "twist"), ("Vector3", none),
   ("Point3", none), ("Quaternion", none), ("TransformStamped", some "transform"),
   ("PoseStamped", some "pose_stamped"), ("PoseWithCovariance", some "pose_cov"),
   ("TwistWithCovariance", some "twist_cov"), ("Accel", some "accel"), ("AccelStamped", some "accel_stamped"),
   ("MotorCommand", some "motor_cmd"), ("ServoCommand", some "servo_cmd"),
   ("DifferentialDriveCommand", some "diff_drive_cmd"), ("PidConfig", some "pid_config"),
   ("TrajectoryPoint", some "trajectory_point"), ("JointCommand", some "joint_cmd"), ("RangeSensor", some "range"),
   ("BatteryState", some "battery"), ("NavSatFix", some "gps"), ("MagneticField", some "mag"),
   ("Temperature", some "temperature"), ("FluidPressure", some "pressure"), ("Illuminance", some "illuminance"),
   ("Heartbeat", some "heartbeat"), ("DiagnosticStatus", some "diagnostics"), ("EmergencyStop", some "estop"),
   ("ResourceUsage", some "resources"), ("WrenchStamped", some "wrench"), ("ForceCommand", some "force_cmd"),
   ("ContactInfo", some "contact"), ("NavGoal", some "nav_goal"), ("GoalResult", some "nav_result"),
   ("PathPlan", some "path_plan"), ("JoystickInput", some "joystick"), ("KeyboardInput", some "keyboard"),
   ("BoundingBox2D", some "bbox2d"), ("BoundingBox3D", some "bbox3d"), ("Detection", some "detection"),
   ("Detection3D", some "detection3d"), ("SegmentationMask", some "segmentation_mask"),
   ("TrackedObject", some "tracked_object"), ("TrackingHeader", some "tracking_header"),
   ("Landmark", some "landmark"), ("Landmark3D", some "landmark3d"), ("LandmarkArray", some "landmark_array"),
   ("PointField", some "point_field"), ("PlaneDetection", some "plane_detection"),
   ("PlaneArray", some "plane_array"), ("CompressedImage", some "compressed_image"),
   ("CameraInfo", some "camera_info"), ("RegionOfInterest", some "region_of_interest"),
   ("StereoInfo", some "stereo_info"), ("ImpedanceParameters", some "impedance_parameters"),
   ("HapticFeedback", some "haptic_feedback"), ("TactileArray", some "tactile_array"),
   ("DiagnosticValue", some "diagnostic_value"), ("DiagnosticReport", some "diagnostic_report"),
   ("NodeHeartbeat", some "node_heartbeat"), ("SafetyStatus", some "safety_status"), ("Waypoint", some "waypoint"),
   ("NavPath", some "nav_path"), ("VelocityObstacle", some "velocity_obstacle"),
   ("VelocityObstacles", some "velocity_obstacles"), ("OccupancyGrid", some "occupancy_grid"),
   ("CostMap", some "cost_map"), ("AudioFrame", none)]

/-- What the handle exchanges (topic.rs:400-431). -/
inductive Kind
  | pod (name : Str)
  | image | pointCloud | depthImage | tensor
  | generic
  deriving DecidableEq, Repr

/-- What is passed as the message type: a class (or anything with a `__name__`) with its `__topic_name__` if it
has one, or a string (topic.rs:375-394). -/
inductive Arg
  | cls (name : Str) (topicName : Option Str)
  | str (s : Str)
  deriving DecidableEq, Repr

structure Topic where
  kind : Kind
  key : Str
  name : Str
  network : Bool
  capacity : Nat
  deriving DecidableEq, Repr

def lower (s : Str) : Str := s.map Char.toLower

/-- The type chosen for a type name (topic.rs:400-431). -/
def kindOf (n : Str) : Kind :=
  if podTable.any (fun e => e.1.toList == n) then .pod n
  else if n = "Image".toList then .image
  else if n = "PointCloud".toList then .pointCloud
  else if n = "DepthImage".toList then .depthImage
  else if n = "Tensor".toList ∨ n = "TensorHandle".toList then .tensor
  else .generic

/-- The type name (topic.rs:375-381). -/
def typeName : Arg → Str
  | .cls n _ => n
  | .str s => s

/-- The default topic name (topic.rs:389-394); strings have no `__topic_name__`. -/
def defaultName : Arg → Str
  | .cls n none => lower n
  | .cls _ (some t) => t
  | .str s => lower s

/-- The part before the first `@` (topic.rs:1373-1377, 1402-1404). -/
def cut (s : Str) : Str := s.takeWhile (· != '@')

/-- `Topic(msg_type, capacity, endpoint)` (topic.rs:366-445, 1368-1419). -/
def create (a : Arg) (capacity : Option Nat) (endpoint : Option Str) : Topic :=
  let eff := endpoint.getD (defaultName a)
  { kind := kindOf (typeName a), key := cut eff, name := eff, network := (endpoint.map fun e => e.contains '@').getD false, capacity := capacity.getD 1024 % 2 ^ 32 }

/-- The topic a `Node` opens for a name in `pubs` or `subs`, with the class given for it if any
(__init__.py:663-700, `_setup_topics`); `capacity` is the node's or the item's. -/
def nodeTopic (name : Str) (cls : Option (Str × Option Str)) (capacity : Nat) : Topic :=
  match cls with
  | some c => create (.cls c.1 c.2) (some capacity) (some name)
  | none => create (.str name) (some capacity) none

/-- The name a node uses for a class listed without one (__init__.py:630-634). -/
def autoName (c : Str × Option Str) : Str := match c.2 with | some t => t | none => lower c.1

/-! ### Proofs -/

theorem cut_id (s : Str) (h : '@' ∉ s) : cut s = s := by
  unfold cut
  induction s with
  | nil => rfl
  | cons c s ih =>
    rw [List.mem_cons, not_or] at h
    rw [List.takeWhile_cons, if_pos (by simpa using fun e => h.1 e.symm), ih h.2]

theorem cut_at (n h : Str) (hn : '@' ∉ n) : cut (n ++ '@' :: h) = n := by
  unfold cut
  induction n with
  | nil => rw [List.nil_append, List.takeWhile_cons, if_neg (by decide)]
  | cons c n ih =>
    rw [List.mem_cons, not_or] at hn
    rw [List.cons_append, List.takeWhile_cons, if_pos (by simpa using fun e => hn.1 e.symm), ih hn.2]

/-- **A topic is connected under the name it reports**, and two topics meet exactly if they report the same name,
for names without `@`. -/
theorem name_is_key_partial (a b : Arg) (c d : Option Nat) (e f : Option Str)
    (ha : '@' ∉ (create a c e).name) (hb : '@' ∉ (create b d f).name) :
    (create a c e).key = (create a c e).name ∧ ((create a c e).key = (create b d f).key ↔ (create a c e).name = (create b d f).name) := by
  have h1 : (create a c e).key = (create a c e).name := cut_id _ ha
  have h2 : (create b d f).key = (create b d f).name := cut_id _ hb
  rw [h1, h2]
  exact ⟨rfl, Iff.rfl⟩

/-- **The endpoint, where given, is the name**; else the class's `__topic_name__`, else its name in lower case. -/
theorem name_given (a : Arg) (c : Option Nat) (e n t : Str) :
    (create a c (some e)).name = e ∧ (create (.cls n (some t)) c none).name = t ∧ (create (.cls n none) c none).name = lower n := ⟨rfl, rfl, rfl⟩

/-- **The capacity asked for is the one the topic gets**, with or without a class, up to what 32 bits hold. -/
theorem node_capacity (n : Str) (cls : Option (Str × Option Str)) (cap : Nat) (h : cap < 2 ^ 32) :
    (nodeTopic n cls cap).capacity = cap := by
  cases cls <;> simp [nodeTopic, create, Nat.mod_eq_of_lt h]

example : (nodeTopic "scan".toList none 16).capacity = 16 := by decide

/-- **A listed class and a topic of that class meet**: `Node(subs=[T])` and `Topic(T)`. -/
theorem node_meets_topic (c : Str × Option Str) (cap : Nat) (hc : '@' ∉ autoName c) :
    (nodeTopic (autoName c) (some c) cap).key = (create (.cls c.1 c.2) none none).key ∧
    (nodeTopic (autoName c) (some c) cap).kind = (create (.cls c.1 c.2) none none).kind := by
  obtain ⟨n, t⟩ := c
  cases t with
  | none => exact ⟨rfl, rfl⟩
  | some t => exact ⟨rfl, rfl⟩

/-- All the classes that have a type of their own. -/
def classes : List Arg :=
  podTable.map (fun e => .cls e.1.toList (e.2.map String.toList)) ++
    [.cls "Image".toList none, .cls "PointCloud".toList none, .cls "DepthImage".toList none, .cls "Tensor".toList none]

/-- **No two message classes share a topic or a type by default.** -/
theorem classes_apart (a b : Arg) (ha : a ∈ classes) (hb : b ∈ classes)
    (h : (create a none none).key = (create b none none).key ∨ (create a none none).kind = (create b none none).kind) : a = b := by
  have h1 : (classes.map fun a => (create a none none).key).Nodup := by decide +kernel
  have h2 : (classes.map fun a => (create a none none).kind).Nodup := by decide +kernel
  rcases h with h | h
  · exact List.inj_on_of_nodup_map h1 ha hb h
  · exact List.inj_on_of_nodup_map h2 ha hb h

theorem classes_typed (a : Arg) (ha : a ∈ classes) : (create a none none).kind ≠ .generic := by
  have h : classes.all (fun a => (create a none none).kind != .generic) = true := by decide +kernel
  rw [List.all_eq_true] at h
  simpa using h a ha

/-- **The capacity is the one asked for**, below 2^32; 1024 if none is. -/
theorem capacity_exact (a : Arg) (n : Nat) (e : Option Str) (h : n < 2 ^ 32) :
    (create a (some n) e).capacity = n ∧ (create a none e).capacity = 1024 := by
  refine ⟨Nat.mod_eq_of_lt h, rfl⟩

example : (create (.cls "CmdVel".toList (some "cmd_vel".toList)) none none) = { kind := .pod "CmdVel".toList, key := "cmd_vel".toList, name := "cmd_vel".toList, network := false, capacity := 1024 } := by decide +kernel

/-- **A larger capacity wraps**: 2^32 + n gives n. -/
theorem capacity_wraps (a : Arg) (n : Nat) (e : Option Str) (h : n < 2 ^ 32) : (create a (some (2 ^ 32 + n)) e).capacity = n := by
  show (2 ^ 32 + n) % 2 ^ 32 = n
  rw [Nat.add_mod_left, Nat.mod_eq_of_lt h]

/-- **A network endpoint is a local topic**: whatever the host, it is connected to the local topic of the name
before the `@`, under a name it does not report, and says it is on the network. -/
theorem network_is_local (a : Arg) (c : Option Nat) (n h : Str) (hn : '@' ∉ n) :
    (create a c (some (n ++ '@' :: h))).key = (create a c (some n)).key ∧
    (create a c (some (n ++ '@' :: h))).network = true ∧
    (create a c (some (n ++ '@' :: h))).key ≠ (create a c (some (n ++ '@' :: h))).name := by
  have hk : (create a c (some (n ++ '@' :: h))).key = n := cut_at n h hn
  refine ⟨?_, ?_, ?_⟩
  · rw [hk]; exact (cut_id n hn).symm
  · show (n ++ '@' :: h).contains '@' = true
    rw [List.contains_iff_mem]; simp
  · rw [hk]
    show n ≠ n ++ '@' :: h
    intro e
    have := congrArg List.length e
    simp at this

/-- **Names given as strings are put in lower case**: those differing only in case are one topic. -/
theorem string_lowered (s t : Str) (c d : Option Nat) (h : lower s = lower t) :
    (create (.str s) c none).key = (create (.str t) d none).key := by
  show cut (lower s) = cut (lower t)
  rw [h]

/-- **A node that gives a class for a name and one that does not are on different topics** whenever the name has a
capital letter: the one keeps the name, the other puts it in lower case. -/
theorem capital_splits (n : Str) (c : Str × Option Str) (cap cap' : Nat) (hn : '@' ∉ n) (hc : lower n ≠ n) :
    (nodeTopic n (some c) cap).key ≠ (nodeTopic n none cap').key := by
  show cut n ≠ cut (lower n)
  have hl : '@' ∉ lower n := by
    unfold lower
    rw [List.mem_map]
    rintro ⟨x, hx, hxe⟩
    have : x = '@' := by
      rw [Char.toLower] at hxe
      split at hxe
      · rename_i hr
        exfalso
        have h2 : (x.val + 32).toNat = 64 := congrArg Char.toNat hxe
        have hr1 : 65 ≤ x.val.toNat := hr.1
        have hr2 : x.val.toNat ≤ 90 := hr.2
        rw [UInt32.toNat_add] at h2
        have h3 : (32 : UInt32).toNat = 32 := rfl
        rw [h3] at h2
        omega
      · exact hxe
    exact hn (this ▸ hx)
  rw [cut_id n hn, cut_id _ hl]
  exact fun e => hc e.symm

/-- **A string that happens to be the name of a message class makes a typed topic**, not a generic one, and not the
topic of that class either. -/
theorem string_typed : ∀ e ∈ podTable, (create (.str e.1.toList) none none).kind = .pod e.1.toList := by decide +kernel

theorem string_not_class :
    (create (.str "CmdVel".toList) none none).kind = (create (.cls "CmdVel".toList (some "cmd_vel".toList)) none none).kind ∧
    (create (.str "CmdVel".toList) none none).key ≠ (create (.cls "CmdVel".toList (some "cmd_vel".toList)) none none).key := by decide +kernel

/-- **The name of a class, not the class, decides the type**: a user's class called `Imu` is taken for the built-in
one. -/
theorem class_by_name (n : Str) (t t' : Option Str) (c c' : Option Nat) (e e' : Option Str) :
    (create (.cls n t) c e).kind = (create (.cls n t') c' e').kind := rfl

/-! ### Finding the type of an existing topic -/

/-- `_detect_topic_type` (__init__.py:693-712): it asks the probe for `type_name`; `attrs` are the attributes the
Python class `Topic` has (topic.rs:346-1358). -/
def detect (attrs : List String) (typeNameOf : String) (known : List (String × Str)) : Option Str :=
  if attrs.contains "type_name" then (if typeNameOf.toLower == "genericmessage" then none else known.lookup typeNameOf.toLower) else none

/-- The attributes of `Topic` (topic.rs:346-1358). -/
def topicAttrs : List String :=
  ["send", "recv", "name", "is_network_topic", "endpoint", "backend_type", "stats", "is_generic", "try_recv", "pending_count", "pub_count", "sub_count", "read_latest", "__repr__"]

/-- **The type of an existing topic is never found**: `Topic` has no `type_name`, so that every untyped
subscription is generic, whatever the publisher sends. -/
theorem never_detected (t : String) (known : List (String × Str)) : detect topicAttrs t known = none := by
  unfold detect
  rw [if_neg (by decide)]

end Horus.PyTopic
