import Verif.Ffi.LayoutDecl

/-! The message declarations of the C++ binding, transcribed by a script from the headers, the Rust
structs and the generated contract. -/

namespace Horus.FfiLayout

/-- The C++ message structs, in an order where every struct follows the structs it contains.
Models /repo/horus_cpp/include/horus/msg/*.hpp; the header and the line of each struct stand beside it. -/
def cppDecls : List Decl := [
  -- geometry.hpp:18
  ⟨"Point3", false, [⟨"x", .prim .f64, []⟩, ⟨"y", .prim .f64, []⟩, ⟨"z", .prim .f64, []⟩]⟩,
  -- geometry.hpp:25
  ⟨"Vector3", false, [⟨"x", .prim .f64, []⟩, ⟨"y", .prim .f64, []⟩, ⟨"z", .prim .f64, []⟩]⟩,
  -- geometry.hpp:33
  ⟨"Quaternion", false, [⟨"x", .prim .f64, []⟩, ⟨"y", .prim .f64, []⟩, ⟨"z", .prim .f64, []⟩, ⟨"w", .prim
    .f64, []⟩]⟩,
  -- geometry.hpp:42
  ⟨"Twist", false, [⟨"linear", .prim .f64, [3]⟩, ⟨"angular", .prim .f64, [3]⟩, ⟨"timestamp_ns", .prim
    .u64, []⟩]⟩,
  -- geometry.hpp:50
  ⟨"Pose2D", false, [⟨"x", .prim .f64, []⟩, ⟨"y", .prim .f64, []⟩, ⟨"theta", .prim .f64, []⟩,
    ⟨"timestamp_ns", .prim .u64, []⟩]⟩,
  -- geometry.hpp:59
  ⟨"TransformStamped", false, [⟨"translation", .prim .f64, [3]⟩, ⟨"rotation", .prim .f64, [4]⟩,
    ⟨"timestamp_ns", .prim .u64, []⟩]⟩,
  -- geometry.hpp:67
  ⟨"Pose3D", false, [⟨"position", .named "Point3", []⟩, ⟨"orientation", .named "Quaternion", []⟩,
    ⟨"timestamp_ns", .prim .u64, []⟩]⟩,
  -- geometry.hpp:75
  ⟨"PoseStamped", false, [⟨"pose", .named "Pose3D", []⟩, ⟨"frame_id", .prim .u8, [32]⟩, ⟨"timestamp_ns",
    .prim .u64, []⟩]⟩,
  -- geometry.hpp:83
  ⟨"PoseWithCovariance", false, [⟨"pose", .named "Pose3D", []⟩, ⟨"covariance", .prim .f64, [36]⟩,
    ⟨"frame_id", .prim .u8, [32]⟩, ⟨"timestamp_ns", .prim .u64, []⟩]⟩,
  -- geometry.hpp:92
  ⟨"TwistWithCovariance", false, [⟨"twist", .named "Twist", []⟩, ⟨"covariance", .prim .f64, [36]⟩,
    ⟨"frame_id", .prim .u8, [32]⟩, ⟨"timestamp_ns", .prim .u64, []⟩]⟩,
  -- geometry.hpp:101
  ⟨"Accel", false, [⟨"linear", .prim .f64, [3]⟩, ⟨"angular", .prim .f64, [3]⟩, ⟨"timestamp_ns", .prim
    .u64, []⟩]⟩,
  -- geometry.hpp:109
  ⟨"AccelStamped", false, [⟨"accel", .named "Accel", []⟩, ⟨"frame_id", .prim .u8, [32]⟩, ⟨"timestamp_ns",
    .prim .u64, []⟩]⟩,
  -- control.hpp:26
  ⟨"CmdVel", false, [⟨"timestamp_ns", .prim .u64, []⟩, ⟨"linear", .prim .f32, []⟩, ⟨"angular", .prim .f32,
    []⟩]⟩,
  -- control.hpp:34
  ⟨"MotorCommand", false, [⟨"motor_id", .prim .u8, []⟩, ⟨"mode", .prim .u8, []⟩, ⟨"target", .prim .f64,
    []⟩, ⟨"max_velocity", .prim .f64, []⟩, ⟨"max_acceleration", .prim .f64, []⟩, ⟨"feed_forward", .prim
    .f64, []⟩, ⟨"enable", .prim .u8, []⟩, ⟨"timestamp_ns", .prim .u64, []⟩]⟩,
  -- control.hpp:49
  ⟨"DifferentialDriveCommand", false, [⟨"left_velocity", .prim .f64, []⟩, ⟨"right_velocity", .prim .f64,
    []⟩, ⟨"max_acceleration", .prim .f64, []⟩, ⟨"enable", .prim .u8, []⟩, ⟨"timestamp_ns", .prim .u64,
    []⟩]⟩,
  -- control.hpp:65
  ⟨"ServoCommand", false, [⟨"servo_id", .prim .u8, []⟩, ⟨"position", .prim .f32, []⟩, ⟨"speed", .prim
    .f32, []⟩, ⟨"enable", .prim .u8, []⟩, ⟨"timestamp_ns", .prim .u64, []⟩]⟩,
  -- control.hpp:77
  ⟨"PidConfig", false, [⟨"controller_id", .prim .u8, []⟩, ⟨"kp", .prim .f64, []⟩, ⟨"ki", .prim .f64, []⟩,
    ⟨"kd", .prim .f64, []⟩, ⟨"integral_limit", .prim .f64, []⟩, ⟨"output_limit", .prim .f64, []⟩,
    ⟨"anti_windup", .prim .u8, []⟩, ⟨"timestamp_ns", .prim .u64, []⟩]⟩,
  -- control.hpp:92
  ⟨"TrajectoryPoint", false, [⟨"position", .prim .f64, [3]⟩, ⟨"velocity", .prim .f64, [3]⟩,
    ⟨"acceleration", .prim .f64, [3]⟩, ⟨"orientation", .prim .f64, [4]⟩, ⟨"angular_velocity", .prim .f64,
    [3]⟩, ⟨"time_from_start", .prim .f64, []⟩]⟩,
  -- control.hpp:106
  ⟨"JointCommand", false, [⟨"joint_names", .prim .u8, [16, 32]⟩, ⟨"joint_count", .prim .u8, []⟩,
    ⟨"positions", .prim .f64, [16]⟩, ⟨"velocities", .prim .f64, [16]⟩, ⟨"efforts", .prim .f64, [16]⟩,
    ⟨"modes", .prim .u8, [16]⟩, ⟨"timestamp_ns", .prim .u64, []⟩]⟩,
  -- sensor.hpp:21
  ⟨"LaserScan", false, [⟨"ranges", .prim .f32, [360]⟩, ⟨"angle_min", .prim .f32, []⟩, ⟨"angle_max", .prim
    .f32, []⟩, ⟨"range_min", .prim .f32, []⟩, ⟨"range_max", .prim .f32, []⟩, ⟨"angle_increment", .prim .f32,
    []⟩, ⟨"time_increment", .prim .f32, []⟩, ⟨"scan_time", .prim .f32, []⟩, ⟨"timestamp_ns", .prim .u64,
    []⟩]⟩,
  -- sensor.hpp:35
  ⟨"Imu", false, [⟨"orientation", .prim .f64, [4]⟩, ⟨"orientation_covariance", .prim .f64, [9]⟩,
    ⟨"angular_velocity", .prim .f64, [3]⟩, ⟨"angular_velocity_covariance", .prim .f64, [9]⟩,
    ⟨"linear_acceleration", .prim .f64, [3]⟩, ⟨"linear_acceleration_covariance", .prim .f64, [9]⟩,
    ⟨"timestamp_ns", .prim .u64, []⟩]⟩,
  -- sensor.hpp:47
  ⟨"Odometry", false, [⟨"pose", .named "Pose2D", []⟩, ⟨"twist", .named "Twist", []⟩, ⟨"pose_covariance",
    .prim .f64, [36]⟩, ⟨"twist_covariance", .prim .f64, [36]⟩, ⟨"frame_id", .prim .u8, [32]⟩,
    ⟨"child_frame_id", .prim .u8, [32]⟩, ⟨"timestamp_ns", .prim .u64, []⟩]⟩,
  -- sensor.hpp:61
  ⟨"RangeSensor", false, [⟨"sensor_type", .prim .u8, []⟩, ⟨"field_of_view", .prim .f32, []⟩, ⟨"min_range",
    .prim .f32, []⟩, ⟨"max_range", .prim .f32, []⟩, ⟨"range", .prim .f32, []⟩, ⟨"timestamp_ns", .prim .u64,
    []⟩]⟩,
  -- sensor.hpp:72
  ⟨"BatteryState", false, [⟨"voltage", .prim .f32, []⟩, ⟨"current", .prim .f32, []⟩, ⟨"charge", .prim
    .f32, []⟩, ⟨"capacity", .prim .f32, []⟩, ⟨"percentage", .prim .f32, []⟩, ⟨"power_supply_status", .prim
    .u8, []⟩, ⟨"temperature", .prim .f32, []⟩, ⟨"cell_voltages", .prim .f32, [16]⟩, ⟨"cell_count", .prim
    .u8, []⟩, ⟨"timestamp_ns", .prim .u64, []⟩]⟩,
  -- sensor.hpp:87
  ⟨"NavSatFix", false, [⟨"latitude", .prim .f64, []⟩, ⟨"longitude", .prim .f64, []⟩, ⟨"altitude", .prim
    .f64, []⟩, ⟨"position_covariance", .prim .f64, [9]⟩, ⟨"position_covariance_type", .prim .u8, []⟩,
    ⟨"status", .prim .u8, []⟩, ⟨"satellites_visible", .prim .u16, []⟩, ⟨"hdop", .prim .f32, []⟩, ⟨"vdop",
    .prim .f32, []⟩, ⟨"speed", .prim .f32, []⟩, ⟨"heading", .prim .f32, []⟩, ⟨"timestamp_ns", .prim .u64,
    []⟩]⟩,
  -- sensor.hpp:104
  ⟨"MagneticField", false, [⟨"magnetic_field", .prim .f64, [3]⟩, ⟨"magnetic_field_covariance", .prim .f64,
    [9]⟩, ⟨"frame_id", .prim .u8, [32]⟩, ⟨"timestamp_ns", .prim .u64, []⟩]⟩,
  -- sensor.hpp:113
  ⟨"Temperature", false, [⟨"temperature", .prim .f64, []⟩, ⟨"variance", .prim .f64, []⟩, ⟨"frame_id",
    .prim .u8, [32]⟩, ⟨"timestamp_ns", .prim .u64, []⟩]⟩,
  -- sensor.hpp:122
  ⟨"FluidPressure", false, [⟨"fluid_pressure", .prim .f64, []⟩, ⟨"variance", .prim .f64, []⟩, ⟨"frame_id",
    .prim .u8, [32]⟩, ⟨"timestamp_ns", .prim .u64, []⟩]⟩,
  -- sensor.hpp:131
  ⟨"Illuminance", false, [⟨"illuminance", .prim .f64, []⟩, ⟨"variance", .prim .f64, []⟩, ⟨"frame_id",
    .prim .u8, [32]⟩, ⟨"timestamp_ns", .prim .u64, []⟩]⟩,
  -- sensor.hpp:140
  ⟨"JointState", false, [⟨"names", .prim .u8, [16, 32]⟩, ⟨"joint_count", .prim .u8, []⟩, ⟨"positions",
    .prim .f64, [16]⟩, ⟨"velocities", .prim .f64, [16]⟩, ⟨"efforts", .prim .f64, [16]⟩, ⟨"timestamp_ns",
    .prim .u64, []⟩]⟩,
  -- navigation.hpp:12
  ⟨"NavGoal", false, [⟨"target_pose", .named "Pose2D", []⟩, ⟨"tolerance_position", .prim .f64, []⟩,
    ⟨"tolerance_angle", .prim .f64, []⟩, ⟨"timeout_seconds", .prim .f64, []⟩, ⟨"priority", .prim .u8, []⟩,
    ⟨"goal_id", .prim .u32, []⟩, ⟨"timestamp_ns", .prim .u64, []⟩]⟩,
  -- navigation.hpp:35
  ⟨"GoalResult", false, [⟨"goal_id", .prim .u32, []⟩, ⟨"status", .prim .u8, []⟩, ⟨"distance_to_goal",
    .prim .f64, []⟩, ⟨"eta_seconds", .prim .f64, []⟩, ⟨"progress", .prim .f32, []⟩, ⟨"error_message", .prim
    .u8, [64]⟩, ⟨"timestamp_ns", .prim .u64, []⟩]⟩,
  -- navigation.hpp:46
  ⟨"Waypoint", false, [⟨"pose", .named "Pose2D", []⟩, ⟨"velocity", .named "Twist", []⟩,
    ⟨"time_from_start", .prim .f64, []⟩, ⟨"curvature", .prim .f32, []⟩, ⟨"stop_required", .prim .u8, []⟩]⟩,
  -- navigation.hpp:55
  ⟨"NavPath", false, [⟨"waypoints", .named "Waypoint", [256]⟩, ⟨"waypoint_count", .prim .u16, []⟩,
    ⟨"total_length", .prim .f64, []⟩, ⟨"duration_seconds", .prim .f64, []⟩, ⟨"frame_id", .prim .u8, [32]⟩,
    ⟨"algorithm", .prim .u8, [32]⟩, ⟨"timestamp_ns", .prim .u64, []⟩]⟩,
  -- navigation.hpp:67
  ⟨"VelocityObstacle", false, [⟨"position", .prim .f64, [2]⟩, ⟨"velocity", .prim .f64, [2]⟩, ⟨"radius",
    .prim .f32, []⟩, ⟨"time_horizon", .prim .f32, []⟩, ⟨"obstacle_id", .prim .u32, []⟩]⟩,
  -- navigation.hpp:77
  ⟨"PathPlan", false, [⟨"waypoint_data", .prim .f32, [768]⟩, ⟨"goal_pose", .prim .f32, [3]⟩,
    ⟨"waypoint_count", .prim .u16, []⟩, ⟨"timestamp_ns", .prim .u64, []⟩]⟩,
  -- diagnostics.hpp:29
  ⟨"Heartbeat", false, [⟨"node_name", .prim .u8, [32]⟩, ⟨"node_id", .prim .u32, []⟩, ⟨"sequence", .prim
    .u64, []⟩, ⟨"alive", .prim .u8, []⟩, ⟨"uptime", .prim .f64, []⟩, ⟨"timestamp_ns", .prim .u64, []⟩]⟩,
  -- diagnostics.hpp:40
  ⟨"DiagnosticStatus", false, [⟨"level", .prim .u8, []⟩, ⟨"code", .prim .u32, []⟩, ⟨"message", .prim .u8,
    [128]⟩, ⟨"component", .prim .u8, [32]⟩, ⟨"timestamp_ns", .prim .u64, []⟩]⟩,
  -- diagnostics.hpp:50
  ⟨"EmergencyStop", false, [⟨"engaged", .prim .u8, []⟩, ⟨"reason", .prim .u8, [64]⟩, ⟨"source", .prim .u8,
    [32]⟩, ⟨"auto_reset", .prim .u8, []⟩, ⟨"timestamp_ns", .prim .u64, []⟩]⟩,
  -- diagnostics.hpp:60
  ⟨"ResourceUsage", false, [⟨"cpu_percent", .prim .f32, []⟩, ⟨"memory_bytes", .prim .u64, []⟩,
    ⟨"memory_percent", .prim .f32, []⟩, ⟨"disk_bytes", .prim .u64, []⟩, ⟨"disk_percent", .prim .f32, []⟩,
    ⟨"network_tx_bytes", .prim .u64, []⟩, ⟨"network_rx_bytes", .prim .u64, []⟩, ⟨"temperature", .prim .f32,
    []⟩, ⟨"thread_count", .prim .u32, []⟩, ⟨"timestamp_ns", .prim .u64, []⟩]⟩,
  -- diagnostics.hpp:76
  ⟨"NodeHeartbeat", false, [⟨"state", .prim .u8, []⟩, ⟨"health", .prim .u8, []⟩, ⟨"tick_count", .prim
    .u64, []⟩, ⟨"target_rate_hz", .prim .u32, []⟩, ⟨"actual_rate_hz", .prim .u32, []⟩, ⟨"error_count", .prim
    .u32, []⟩, ⟨"last_tick_timestamp", .prim .u64, []⟩, ⟨"heartbeat_timestamp", .prim .u64, []⟩]⟩,
  -- diagnostics.hpp:89
  ⟨"SafetyStatus", false, [⟨"enabled", .prim .u8, []⟩, ⟨"estop_engaged", .prim .u8, []⟩, ⟨"watchdog_ok",
    .prim .u8, []⟩, ⟨"limits_ok", .prim .u8, []⟩, ⟨"comms_ok", .prim .u8, []⟩, ⟨"mode", .prim .u8, []⟩,
    ⟨"fault_code", .prim .u32, []⟩, ⟨"timestamp_ns", .prim .u64, []⟩]⟩,
  -- diagnostics.hpp:108
  ⟨"DiagnosticValue", false, [⟨"key", .prim .u8, [32]⟩, ⟨"value", .prim .u8, [64]⟩, ⟨"value_type", .prim
    .u8, []⟩]⟩,
  -- diagnostics.hpp:121
  ⟨"DiagnosticReport", false, [⟨"component", .prim .u8, [32]⟩, ⟨"values", .named "DiagnosticValue", [16]⟩,
    ⟨"value_count", .prim .u8, []⟩, ⟨"level", .prim .u8, []⟩, ⟨"timestamp_ns", .prim .u64, []⟩]⟩,
  -- force.hpp:24
  ⟨"WrenchStamped", false, [⟨"force", .named "Vector3", []⟩, ⟨"torque", .named "Vector3", []⟩,
    ⟨"point_of_application", .named "Point3", []⟩, ⟨"frame_id", .prim .u8, [32]⟩, ⟨"timestamp_ns", .prim
    .u64, []⟩]⟩,
  -- force.hpp:37
  ⟨"ImpedanceParameters", false, [⟨"stiffness", .prim .f64, [6]⟩, ⟨"damping", .prim .f64, [6]⟩,
    ⟨"inertia", .prim .f64, [6]⟩, ⟨"force_limits", .prim .f64, [6]⟩, ⟨"enabled", .prim .u8, []⟩,
    ⟨"timestamp_ns", .prim .u64, []⟩]⟩,
  -- force.hpp:48
  ⟨"ForceCommand", false, [⟨"target_force", .named "Vector3", []⟩, ⟨"target_torque", .named "Vector3",
    []⟩, ⟨"force_mode", .prim .u8, [6]⟩, ⟨"position_setpoint", .named "Vector3", []⟩,
    ⟨"orientation_setpoint", .named "Vector3", []⟩, ⟨"max_deviation", .named "Vector3", []⟩, ⟨"gains", .prim
    .f64, [6]⟩, ⟨"timeout_seconds", .prim .f64, []⟩, ⟨"frame_id", .prim .u8, [32]⟩, ⟨"timestamp_ns", .prim
    .u64, []⟩]⟩,
  -- force.hpp:78
  ⟨"ContactInfo", false, [⟨"state", .prim .u8, []⟩, ⟨"contact_force", .prim .f64, []⟩, ⟨"contact_normal",
    .named "Vector3", []⟩, ⟨"contact_point", .named "Point3", []⟩, ⟨"stiffness", .prim .f64, []⟩,
    ⟨"damping", .prim .f64, []⟩, ⟨"confidence", .prim .f32, []⟩, ⟨"contact_start_time", .prim .u64, []⟩,
    ⟨"frame_id", .prim .u8, [32]⟩, ⟨"timestamp_ns", .prim .u64, []⟩]⟩,
  -- force.hpp:93
  ⟨"HapticFeedback", false, [⟨"vibration_intensity", .prim .f32, []⟩, ⟨"vibration_frequency", .prim .f32,
    []⟩, ⟨"duration_seconds", .prim .f32, []⟩, ⟨"force_feedback", .named "Vector3", []⟩, ⟨"pattern_type",
    .prim .u8, []⟩, ⟨"enabled", .prim .u8, []⟩, ⟨"timestamp_ns", .prim .u64, []⟩]⟩,
  -- input.hpp:32
  ⟨"AudioFrame", false, [⟨"samples", .prim .f32, [4800]⟩, ⟨"num_samples", .prim .u32, []⟩, ⟨"sample_rate",
    .prim .u32, []⟩, ⟨"channels", .prim .u8, []⟩, ⟨"encoding", .prim .u8, []⟩, ⟨"_pad", .prim .u8, [2]⟩,
    ⟨"timestamp_ns", .prim .u64, []⟩, ⟨"frame_id", .prim .u8, [32]⟩]⟩,
  -- input.hpp:62
  ⟨"KeyboardInput", false, [⟨"key_name", .prim .u8, [32]⟩, ⟨"code", .prim .u32, []⟩, ⟨"modifier_flags",
    .prim .u32, []⟩, ⟨"pressed", .prim .u8, []⟩, ⟨"timestamp_ms", .prim .u64, []⟩, ⟨"_padding", .prim .u8,
    [16]⟩]⟩,
  -- input.hpp:82
  ⟨"JoystickInput", false, [⟨"joystick_id", .prim .u32, []⟩, ⟨"event_type", .prim .u8, [16]⟩,
    ⟨"element_id", .prim .u32, []⟩, ⟨"element_name", .prim .u8, [32]⟩, ⟨"value", .prim .f32, []⟩,
    ⟨"pressed", .prim .u8, []⟩, ⟨"timestamp_ms", .prim .u64, []⟩]⟩,
  -- time.hpp:25
  ⟨"Clock", false, [⟨"clock_ns", .prim .u64, []⟩, ⟨"realtime_ns", .prim .u64, []⟩, ⟨"sim_speed", .prim
    .f64, []⟩, ⟨"paused", .prim .u8, []⟩, ⟨"source", .prim .u8, []⟩, ⟨"_pad", .prim .u8, [6]⟩,
    ⟨"timestamp_ns", .prim .u64, []⟩]⟩,
  -- time.hpp:44
  ⟨"TimeReference", false, [⟨"time_ref_ns", .prim .u64, []⟩, ⟨"source", .prim .u8, [32]⟩, ⟨"offset_ns",
    .prim .i64, []⟩, ⟨"timestamp_ns", .prim .u64, []⟩]⟩,
  -- time.hpp:64
  ⟨"SimSync", false, [⟨"step", .prim .u64, []⟩, ⟨"sim_time_ns", .prim .u64, []⟩, ⟨"dt_ns", .prim .u64,
    []⟩, ⟨"state", .prim .u8, []⟩, ⟨"_pad", .prim .u8, [7]⟩]⟩,
  -- time.hpp:83
  ⟨"RateRequest", false, [⟨"topic_name", .prim .u8, [32]⟩, ⟨"desired_hz", .prim .f64, []⟩, ⟨"min_hz",
    .prim .f64, []⟩, ⟨"max_hz", .prim .f64, []⟩, ⟨"requester_id", .prim .u64, []⟩, ⟨"timestamp_ns", .prim
    .u64, []⟩]⟩,
  -- detection.hpp:24
  ⟨"BoundingBox2D", false, [⟨"x", .prim .f32, []⟩, ⟨"y", .prim .f32, []⟩, ⟨"width", .prim .f32, []⟩,
    ⟨"height", .prim .f32, []⟩]⟩,
  -- detection.hpp:35
  ⟨"BoundingBox3D", false, [⟨"cx", .prim .f32, []⟩, ⟨"cy", .prim .f32, []⟩, ⟨"cz", .prim .f32, []⟩,
    ⟨"length", .prim .f32, []⟩, ⟨"width", .prim .f32, []⟩, ⟨"height", .prim .f32, []⟩, ⟨"roll", .prim .f32,
    []⟩, ⟨"pitch", .prim .f32, []⟩, ⟨"yaw", .prim .f32, []⟩, ⟨"_pad", .prim .f32, [3]⟩]⟩,
  -- detection.hpp:49
  ⟨"Detection", false, [⟨"bbox", .named "BoundingBox2D", []⟩, ⟨"confidence", .prim .f32, []⟩, ⟨"class_id",
    .prim .u32, []⟩, ⟨"class_name", .prim .u8, [32]⟩, ⟨"instance_id", .prim .u32, []⟩, ⟨"_pad", .prim .u8,
    [12]⟩]⟩,
  -- detection.hpp:59
  ⟨"Detection3D", false, [⟨"bbox", .named "BoundingBox3D", []⟩, ⟨"confidence", .prim .f32, []⟩,
    ⟨"class_id", .prim .u32, []⟩, ⟨"class_name", .prim .u8, [32]⟩, ⟨"velocity_x", .prim .f32, []⟩,
    ⟨"velocity_y", .prim .f32, []⟩, ⟨"velocity_z", .prim .f32, []⟩, ⟨"instance_id", .prim .u32, []⟩]⟩,
  -- detection.hpp:71
  ⟨"Landmark", false, [⟨"x", .prim .f32, []⟩, ⟨"y", .prim .f32, []⟩, ⟨"visibility", .prim .f32, []⟩,
    ⟨"index", .prim .u32, []⟩]⟩,
  -- detection.hpp:81
  ⟨"Landmark3D", true, [⟨"x", .prim .f32, []⟩, ⟨"y", .prim .f32, []⟩, ⟨"z", .prim .f32, []⟩,
    ⟨"visibility", .prim .f32, []⟩, ⟨"index", .prim .u32, []⟩]⟩,
  -- detection.hpp:90
  ⟨"LandmarkArray", false, [⟨"num_landmarks", .prim .u32, []⟩, ⟨"dimension", .prim .u32, []⟩,
    ⟨"instance_id", .prim .u32, []⟩, ⟨"confidence", .prim .f32, []⟩, ⟨"timestamp_ns", .prim .u64, []⟩,
    ⟨"bbox_x", .prim .f32, []⟩, ⟨"bbox_y", .prim .f32, []⟩, ⟨"bbox_width", .prim .f32, []⟩, ⟨"bbox_height",
    .prim .f32, []⟩]⟩,
  -- detection.hpp:103
  ⟨"TrackedObject", false, [⟨"bbox", .named "BoundingBox2D", []⟩, ⟨"predicted_bbox", .named
    "BoundingBox2D", []⟩, ⟨"track_id", .prim .u64, []⟩, ⟨"confidence", .prim .f32, []⟩, ⟨"class_id", .prim
    .u32, []⟩, ⟨"velocity_x", .prim .f32, []⟩, ⟨"velocity_y", .prim .f32, []⟩, ⟨"accel_x", .prim .f32, []⟩,
    ⟨"accel_y", .prim .f32, []⟩, ⟨"age", .prim .u32, []⟩, ⟨"hits", .prim .u32, []⟩, ⟨"time_since_update",
    .prim .u32, []⟩, ⟨"state", .prim .u32, []⟩, ⟨"class_name", .prim .u8, [16]⟩]⟩,
  -- detection.hpp:121
  ⟨"TrackingHeader", false, [⟨"num_tracks", .prim .u32, []⟩, ⟨"frame_id", .prim .u32, []⟩,
    ⟨"timestamp_ns", .prim .u64, []⟩, ⟨"total_tracks", .prim .u64, []⟩, ⟨"active_tracks", .prim .u32, []⟩,
    ⟨"_pad", .prim .u32, []⟩]⟩,
  -- detection.hpp:133
  ⟨"SegmentationMask", false, [⟨"width", .prim .u32, []⟩, ⟨"height", .prim .u32, []⟩, ⟨"num_classes",
    .prim .u32, []⟩, ⟨"mask_type", .prim .u32, []⟩, ⟨"timestamp_ns", .prim .u64, []⟩, ⟨"seq", .prim .u64,
    []⟩, ⟨"frame_id", .prim .u8, [32]⟩]⟩]

/-- The Rust `#[repr(C)]` message structs whose source is in the repository and which the C API passes.
Models /repo/horus_types/src/{math,diagnostics,time,generic}.rs; file and line stand beside each. -/
def rustDecls : List Decl := [
  -- math.rs:659
  ⟨"Accel", false, [⟨"linear", .prim .f64, [3]⟩, ⟨"angular", .prim .f64, [3]⟩, ⟨"timestamp_ns", .prim
    .u64, []⟩]⟩,
  -- math.rs:689
  ⟨"AccelStamped", false, [⟨"accel", .named "Accel", []⟩, ⟨"frame_id", .prim .u8, [32]⟩, ⟨"timestamp_ns",
    .prim .u64, []⟩]⟩,
  -- time.rs:62
  ⟨"Clock", false, [⟨"clock_ns", .prim .u64, []⟩, ⟨"realtime_ns", .prim .u64, []⟩, ⟨"sim_speed", .prim
    .f64, []⟩, ⟨"paused", .prim .u8, []⟩, ⟨"source", .prim .u8, []⟩, ⟨"_pad", .prim .u8, [6]⟩,
    ⟨"timestamp_ns", .prim .u64, []⟩]⟩,
  -- diagnostics.rs:124
  ⟨"DiagnosticStatus", false, [⟨"level", .prim .u8, []⟩, ⟨"code", .prim .u32, []⟩, ⟨"message", .prim .u8,
    [128]⟩, ⟨"component", .prim .u8, [32]⟩, ⟨"timestamp_ns", .prim .u64, []⟩]⟩,
  -- diagnostics.rs:216
  ⟨"EmergencyStop", false, [⟨"engaged", .prim .u8, []⟩, ⟨"reason", .prim .u8, [64]⟩, ⟨"source", .prim .u8,
    [32]⟩, ⟨"auto_reset", .prim .u8, []⟩, ⟨"timestamp_ns", .prim .u64, []⟩]⟩,
  -- diagnostics.rs:38
  ⟨"Heartbeat", false, [⟨"node_name", .prim .u8, [32]⟩, ⟨"node_id", .prim .u32, []⟩, ⟨"sequence", .prim
    .u64, []⟩, ⟨"alive", .prim .u8, []⟩, ⟨"uptime", .prim .f64, []⟩, ⟨"timestamp_ns", .prim .u64, []⟩]⟩,
  -- diagnostics.rs:543
  ⟨"NodeHeartbeat", false, [⟨"state", .prim .u8, []⟩, ⟨"health", .prim .u8, []⟩, ⟨"tick_count", .prim
    .u64, []⟩, ⟨"target_rate_hz", .prim .u32, []⟩, ⟨"actual_rate_hz", .prim .u32, []⟩, ⟨"error_count", .prim
    .u32, []⟩, ⟨"last_tick_timestamp", .prim .u64, []⟩, ⟨"heartbeat_timestamp", .prim .u64, []⟩]⟩,
  -- math.rs:216
  ⟨"Point3", false, [⟨"x", .prim .f64, []⟩, ⟨"y", .prim .f64, []⟩, ⟨"z", .prim .f64, []⟩]⟩,
  -- math.rs:95
  ⟨"Pose2D", false, [⟨"x", .prim .f64, []⟩, ⟨"y", .prim .f64, []⟩, ⟨"theta", .prim .f64, []⟩,
    ⟨"timestamp_ns", .prim .u64, []⟩]⟩,
  -- math.rs:386
  ⟨"Quaternion", false, [⟨"x", .prim .f64, []⟩, ⟨"y", .prim .f64, []⟩, ⟨"z", .prim .f64, []⟩, ⟨"w", .prim
    .f64, []⟩]⟩,
  -- math.rs:451
  ⟨"Pose3D", false, [⟨"position", .named "Point3", []⟩, ⟨"orientation", .named "Quaternion", []⟩,
    ⟨"timestamp_ns", .prim .u64, []⟩]⟩,
  -- math.rs:506
  ⟨"PoseStamped", false, [⟨"pose", .named "Pose3D", []⟩, ⟨"frame_id", .prim .u8, [32]⟩, ⟨"timestamp_ns",
    .prim .u64, []⟩]⟩,
  -- math.rs:538
  ⟨"PoseWithCovariance", false, [⟨"pose", .named "Pose3D", []⟩, ⟨"covariance", .prim .f64, [36]⟩,
    ⟨"frame_id", .prim .u8, [32]⟩, ⟨"timestamp_ns", .prim .u64, []⟩]⟩,
  -- diagnostics.rs:292
  ⟨"ResourceUsage", false, [⟨"cpu_percent", .prim .f32, []⟩, ⟨"memory_bytes", .prim .u64, []⟩,
    ⟨"memory_percent", .prim .f32, []⟩, ⟨"disk_bytes", .prim .u64, []⟩, ⟨"disk_percent", .prim .f32, []⟩,
    ⟨"network_tx_bytes", .prim .u64, []⟩, ⟨"network_rx_bytes", .prim .u64, []⟩, ⟨"temperature", .prim .f32,
    []⟩, ⟨"thread_count", .prim .u32, []⟩, ⟨"timestamp_ns", .prim .u64, []⟩]⟩,
  -- diagnostics.rs:626
  ⟨"SafetyStatus", false, [⟨"enabled", .prim .u8, []⟩, ⟨"estop_engaged", .prim .u8, []⟩, ⟨"watchdog_ok",
    .prim .u8, []⟩, ⟨"limits_ok", .prim .u8, []⟩, ⟨"comms_ok", .prim .u8, []⟩, ⟨"mode", .prim .u8, []⟩,
    ⟨"fault_code", .prim .u32, []⟩, ⟨"timestamp_ns", .prim .u64, []⟩]⟩,
  -- time.rs:164
  ⟨"TimeReference", false, [⟨"time_ref_ns", .prim .u64, []⟩, ⟨"source", .prim .u8, [32]⟩, ⟨"offset_ns",
    .prim .i64, []⟩, ⟨"timestamp_ns", .prim .u64, []⟩]⟩,
  -- math.rs:153
  ⟨"TransformStamped", false, [⟨"translation", .prim .f64, [3]⟩, ⟨"rotation", .prim .f64, [4]⟩,
    ⟨"timestamp_ns", .prim .u64, []⟩]⟩,
  -- math.rs:53
  ⟨"Twist", false, [⟨"linear", .prim .f64, [3]⟩, ⟨"angular", .prim .f64, [3]⟩, ⟨"timestamp_ns", .prim
    .u64, []⟩]⟩,
  -- math.rs:599
  ⟨"TwistWithCovariance", false, [⟨"twist", .named "Twist", []⟩, ⟨"covariance", .prim .f64, [36]⟩,
    ⟨"frame_id", .prim .u8, [32]⟩, ⟨"timestamp_ns", .prim .u64, []⟩]⟩,
  -- math.rs:244
  ⟨"Vector3", false, [⟨"x", .prim .f64, []⟩, ⟨"y", .prim .f64, []⟩, ⟨"z", .prim .f64, []⟩]⟩]

/-- The generated contract: what Rust computed for each message type, asserted of the C++ struct.
Models /repo/horus_cpp/include/horus/layout_contract.hpp, generated from
/repo/horus_cpp/src/layout_contract.rs:50-162. -/
def contract : List Entry := [
  ⟨"AudioFrame", 19256, [("samples", 0), ("num_samples", 19200), ("sample_rate", 19204), ("channels",
    19208), ("encoding", 19209), ("_pad", 19210), ("timestamp_ns", 19216), ("frame_id", 19224)]⟩,
  ⟨"BatteryState", 104, [("voltage", 0), ("current", 4), ("charge", 8), ("capacity", 12), ("percentage",
    16), ("power_supply_status", 20), ("temperature", 24), ("cell_voltages", 28), ("cell_count", 92),
    ("timestamp_ns", 96)]⟩,
  ⟨"BoundingBox2D", 16, [("x", 0), ("y", 4), ("width", 8), ("height", 12)]⟩,
  ⟨"BoundingBox3D", 48, [("cx", 0), ("cy", 4), ("cz", 8), ("length", 12), ("width", 16), ("height", 20),
    ("roll", 24), ("pitch", 28), ("yaw", 32)]⟩,
  ⟨"ContactInfo", 136, [("state", 0), ("contact_force", 8), ("contact_normal", 16), ("contact_point", 40),
    ("stiffness", 64), ("damping", 72), ("confidence", 80), ("contact_start_time", 88), ("frame_id", 96),
    ("timestamp_ns", 128)]⟩,
  ⟨"Detection", 72, [("bbox", 0), ("confidence", 16), ("class_id", 20), ("class_name", 24),
    ("instance_id", 56)]⟩,
  ⟨"Detection3D", 104, [("bbox", 0), ("confidence", 48), ("class_id", 52), ("class_name", 56),
    ("velocity_x", 88), ("velocity_y", 92), ("velocity_z", 96), ("instance_id", 100)]⟩,
  ⟨"FluidPressure", 56, [("fluid_pressure", 0), ("variance", 8), ("frame_id", 16), ("timestamp_ns", 48)]⟩,
  ⟨"ForceCommand", 224, [("target_force", 0), ("target_torque", 24), ("force_mode", 48),
    ("position_setpoint", 56), ("orientation_setpoint", 80), ("max_deviation", 104), ("gains", 128),
    ("timeout_seconds", 176), ("frame_id", 184), ("timestamp_ns", 216)]⟩,
  ⟨"GoalResult", 104, [("goal_id", 0), ("status", 4), ("distance_to_goal", 8), ("eta_seconds", 16),
    ("progress", 24), ("error_message", 28), ("timestamp_ns", 96)]⟩,
  ⟨"HapticFeedback", 56, [("vibration_intensity", 0), ("vibration_frequency", 4), ("duration_seconds", 8),
    ("force_feedback", 16), ("pattern_type", 40), ("enabled", 41), ("timestamp_ns", 48)]⟩,
  ⟨"Illuminance", 56, [("illuminance", 0), ("variance", 8), ("frame_id", 16), ("timestamp_ns", 48)]⟩,
  ⟨"ImpedanceParameters", 208, [("stiffness", 0), ("damping", 48), ("inertia", 96), ("force_limits", 144),
    ("enabled", 192), ("timestamp_ns", 200)]⟩,
  ⟨"Imu", 304, [("orientation", 0), ("orientation_covariance", 32), ("angular_velocity", 104),
    ("angular_velocity_covariance", 128), ("linear_acceleration", 200), ("linear_acceleration_covariance",
    224), ("timestamp_ns", 296)]⟩,
  ⟨"JointCommand", 928, [("joint_names", 0), ("joint_count", 512), ("positions", 520), ("velocities",
    648), ("efforts", 776), ("modes", 904), ("timestamp_ns", 920)]⟩,
  ⟨"JointState", 912, [("names", 0), ("joint_count", 512), ("positions", 520), ("velocities", 648),
    ("efforts", 776), ("timestamp_ns", 904)]⟩,
  ⟨"JoystickInput", 72, [("joystick_id", 0), ("event_type", 4), ("element_id", 20), ("element_name", 24),
    ("value", 56), ("pressed", 60), ("timestamp_ms", 64)]⟩,
  ⟨"KeyboardInput", 72, [("key_name", 0), ("code", 32), ("modifier_flags", 36), ("pressed", 40),
    ("timestamp_ms", 48), ("_padding", 56)]⟩,
  ⟨"Landmark", 16, [("x", 0), ("y", 4), ("visibility", 8), ("index", 12)]⟩,
  ⟨"Landmark3D", 20, [("x", 0), ("y", 4), ("z", 8), ("visibility", 12), ("index", 16)]⟩,
  ⟨"LandmarkArray", 40, [("num_landmarks", 0), ("dimension", 4), ("instance_id", 8), ("confidence", 12),
    ("timestamp_ns", 16), ("bbox_x", 24), ("bbox_y", 28), ("bbox_width", 32), ("bbox_height", 36)]⟩,
  ⟨"LaserScan", 1480, [("ranges", 0), ("angle_min", 1440), ("angle_max", 1444), ("range_min", 1448),
    ("range_max", 1452), ("angle_increment", 1456), ("time_increment", 1460), ("scan_time", 1464),
    ("timestamp_ns", 1472)]⟩,
  ⟨"MagneticField", 136, [("magnetic_field", 0), ("magnetic_field_covariance", 24), ("frame_id", 96),
    ("timestamp_ns", 128)]⟩,
  ⟨"MotorCommand", 56, [("motor_id", 0), ("mode", 1), ("target", 8), ("max_velocity", 16),
    ("max_acceleration", 24), ("feed_forward", 32), ("enable", 40), ("timestamp_ns", 48)]⟩,
  ⟨"NavGoal", 72, [("target_pose", 0), ("tolerance_position", 32), ("tolerance_angle", 40),
    ("timeout_seconds", 48), ("priority", 56), ("goal_id", 60), ("timestamp_ns", 64)]⟩,
  ⟨"NavPath", 26720, [("waypoints", 0), ("waypoint_count", 26624), ("total_length", 26632),
    ("duration_seconds", 26640), ("frame_id", 26648), ("algorithm", 26680), ("timestamp_ns", 26712)]⟩,
  ⟨"NavSatFix", 128, [("latitude", 0), ("longitude", 8), ("altitude", 16), ("position_covariance", 24),
    ("position_covariance_type", 96), ("status", 97), ("satellites_visible", 98), ("hdop", 100), ("vdop",
    104), ("speed", 108), ("heading", 112), ("timestamp_ns", 120)]⟩,
  ⟨"Odometry", 736, [("pose", 0), ("twist", 32), ("pose_covariance", 88), ("twist_covariance", 376),
    ("frame_id", 664), ("child_frame_id", 696), ("timestamp_ns", 728)]⟩,
  ⟨"PathPlan", 3096, [("waypoint_data", 0), ("goal_pose", 3072), ("waypoint_count", 3084),
    ("timestamp_ns", 3088)]⟩,
  ⟨"PidConfig", 64, [("controller_id", 0), ("kp", 8), ("ki", 16), ("kd", 24), ("integral_limit", 32),
    ("output_limit", 40), ("anti_windup", 48), ("timestamp_ns", 56)]⟩,
  ⟨"RangeSensor", 32, [("sensor_type", 0), ("field_of_view", 4), ("min_range", 8), ("max_range", 12),
    ("range", 16), ("timestamp_ns", 24)]⟩,
  ⟨"SegmentationMask", 64, [("width", 0), ("height", 4), ("num_classes", 8), ("mask_type", 12),
    ("timestamp_ns", 16), ("seq", 24), ("frame_id", 32)]⟩,
  ⟨"ServoCommand", 24, [("servo_id", 0), ("position", 4), ("speed", 8), ("enable", 12), ("timestamp_ns",
    16)]⟩,
  ⟨"Temperature", 56, [("temperature", 0), ("variance", 8), ("frame_id", 16), ("timestamp_ns", 48)]⟩,
  ⟨"TrackedObject", 96, [("bbox", 0), ("predicted_bbox", 16), ("track_id", 32), ("confidence", 40),
    ("class_id", 44), ("velocity_x", 48), ("velocity_y", 52), ("accel_x", 56), ("accel_y", 60), ("age", 64),
    ("hits", 68), ("time_since_update", 72), ("state", 76), ("class_name", 80)]⟩,
  ⟨"TrackingHeader", 32, [("num_tracks", 0), ("frame_id", 4), ("timestamp_ns", 8), ("total_tracks", 16),
    ("active_tracks", 24)]⟩,
  ⟨"TrajectoryPoint", 136, [("position", 0), ("velocity", 24), ("acceleration", 48), ("orientation", 72),
    ("angular_velocity", 104), ("time_from_start", 128)]⟩,
  ⟨"VelocityObstacle", 48, [("position", 0), ("velocity", 16), ("radius", 32), ("time_horizon", 36),
    ("obstacle_id", 40)]⟩,
  ⟨"Waypoint", 104, [("pose", 0), ("velocity", 32), ("time_from_start", 88), ("curvature", 96),
    ("stop_required", 100)]⟩,
  ⟨"WrenchStamped", 112, [("force", 0), ("torque", 24), ("point_of_application", 48), ("frame_id", 72),
    ("timestamp_ns", 104)]⟩,
  ⟨"Accel", 56, [("linear", 0), ("angular", 24), ("timestamp_ns", 48)]⟩,
  ⟨"AccelStamped", 96, [("accel", 0), ("frame_id", 56), ("timestamp_ns", 88)]⟩,
  ⟨"Clock", 40, [("clock_ns", 0), ("realtime_ns", 8), ("sim_speed", 16), ("paused", 24), ("source", 25),
    ("timestamp_ns", 32)]⟩,
  ⟨"DiagnosticStatus", 176, [("level", 0), ("code", 4), ("message", 8), ("component", 136),
    ("timestamp_ns", 168)]⟩,
  ⟨"EmergencyStop", 112, [("engaged", 0), ("reason", 1), ("source", 65), ("auto_reset", 97),
    ("timestamp_ns", 104)]⟩,
  ⟨"Heartbeat", 72, [("node_name", 0), ("node_id", 32), ("sequence", 40), ("alive", 48), ("uptime", 56),
    ("timestamp_ns", 64)]⟩,
  ⟨"NodeHeartbeat", 48, [("state", 0), ("health", 1), ("tick_count", 8), ("target_rate_hz", 16),
    ("actual_rate_hz", 20), ("error_count", 24), ("last_tick_timestamp", 32), ("heartbeat_timestamp", 40)]⟩,
  ⟨"Point3", 24, [("x", 0), ("y", 8), ("z", 16)]⟩,
  ⟨"Pose2D", 32, [("x", 0), ("y", 8), ("theta", 16), ("timestamp_ns", 24)]⟩,
  ⟨"Pose3D", 64, [("position", 0), ("orientation", 24), ("timestamp_ns", 56)]⟩,
  ⟨"PoseStamped", 104, [("pose", 0), ("frame_id", 64), ("timestamp_ns", 96)]⟩,
  ⟨"PoseWithCovariance", 392, [("pose", 0), ("covariance", 64), ("frame_id", 352), ("timestamp_ns", 384)]⟩,
  ⟨"Quaternion", 32, [("x", 0), ("y", 8), ("z", 16), ("w", 24)]⟩,
  ⟨"ResourceUsage", 72, [("cpu_percent", 0), ("memory_bytes", 8), ("memory_percent", 16), ("disk_bytes",
    24), ("disk_percent", 32), ("network_tx_bytes", 40), ("network_rx_bytes", 48), ("temperature", 56),
    ("thread_count", 60), ("timestamp_ns", 64)]⟩,
  ⟨"SafetyStatus", 24, [("enabled", 0), ("estop_engaged", 1), ("watchdog_ok", 2), ("limits_ok", 3),
    ("comms_ok", 4), ("mode", 5), ("fault_code", 8), ("timestamp_ns", 16)]⟩,
  ⟨"TimeReference", 56, [("time_ref_ns", 0), ("source", 8), ("offset_ns", 40), ("timestamp_ns", 48)]⟩,
  ⟨"TransformStamped", 64, [("translation", 0), ("rotation", 24), ("timestamp_ns", 56)]⟩,
  ⟨"Twist", 56, [("linear", 0), ("angular", 24), ("timestamp_ns", 48)]⟩,
  ⟨"TwistWithCovariance", 384, [("twist", 0), ("covariance", 56), ("frame_id", 344), ("timestamp_ns", 376)]⟩,
  ⟨"Vector3", 24, [("x", 0), ("y", 8), ("z", 16)]⟩]

/-- The message types whose Rust source is in the repository (crate `horus_types`) among the contract's
entries: /repo/horus_cpp/src/layout_contract.rs:50-162. -/
def sharedTypes : List String := ["Accel", "AccelStamped", "Clock", "DiagnosticStatus", "EmergencyStop",
  "Heartbeat", "NodeHeartbeat", "Point3", "Pose2D", "Pose3D", "PoseStamped", "PoseWithCovariance",
  "Quaternion", "ResourceUsage", "SafetyStatus", "TimeReference", "TransformStamped", "Twist",
  "TwistWithCovariance", "Vector3"]

/-- The types with a C send and receive function: /repo/horus_cpp/src/c_api.rs:517-699. -/
def apiTypes : List String := ["LaserScan", "Imu", "Odometry", "JointState", "Twist", "Pose2D",
  "TransformStamped", "NavGoal", "Heartbeat", "EmergencyStop", "RangeSensor", "BatteryState", "NavSatFix",
  "MagneticField", "Temperature", "FluidPressure", "Illuminance", "MotorCommand",
  "DifferentialDriveCommand", "ServoCommand", "PidConfig", "TrajectoryPoint", "JointCommand", "Point3",
  "Vector3", "Quaternion", "Pose3D", "PoseStamped", "PoseWithCovariance", "TwistWithCovariance", "Accel",
  "AccelStamped", "BoundingBox2D", "BoundingBox3D", "Detection", "Detection3D", "GoalResult", "Waypoint",
  "NavPath", "VelocityObstacle", "PathPlan", "DiagnosticStatus", "ResourceUsage", "NodeHeartbeat",
  "SafetyStatus", "WrenchStamped", "ForceCommand", "ContactInfo", "HapticFeedback", "ImpedanceParameters",
  "TrackedObject", "TrackingHeader", "SegmentationMask", "Landmark", "Landmark3D", "LandmarkArray",
  "KeyboardInput", "JoystickInput", "AudioFrame", "Clock", "TimeReference"]

end Horus.FfiLayout
