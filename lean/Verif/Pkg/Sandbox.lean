import Mathlib.Tactic.Common
/-
The plugin sandbox. Source: /repo/horus_manager/src/plugins/sandbox.rs:71-522. The kernel's side is modelled too: the classic BPF machine, for
the instructions the filter uses, with the sandboxed call's data (`struct seccomp_data`).
-/
namespace Horus.Sandbox

/-- libc `sock_filter`. -/
structure Insn where
  code : Nat
  jt : Nat
  jf : Nat
  k : Nat
deriving DecidableEq, Repr

/-- sandbox.rs:72-78, or-ed as at 471-493. -/
def LD_W_ABS : Nat := 0x20
def JEQ_K : Nat := 0x15
def RET_K : Nat := 0x06

/-- sandbox.rs:81-88. -/
def ALLOW : Nat := 0x7fff0000
def KILL : Nat := 0x80000000
def EPERM : Nat := 0x00050001
def X86_64 : Nat := 0xC000003E

/-- sandbox.rs:129-142. -/
def stmt (code k : Nat) : Insn := ⟨code, 0, 0, k⟩
def jump (code k jt jf : Nat) : Insn := ⟨code, jt, jf, k⟩

/-- sandbox.rs:97-123, 341-450: the deny table. -/
def denied : List (Nat × Nat) :=
  [(41, EPERM), (42, EPERM), (49, EPERM), (50, EPERM), (43, EPERM), (288, EPERM), (54, EPERM), (55, EPERM), (46, EPERM), (44, EPERM), (47, EPERM),
   (45, EPERM), (101, KILL), (161, KILL), (155, KILL), (165, KILL), (166, KILL), (105, KILL), (106, KILL), (113, KILL), (114, KILL), (117, KILL),
   (119, KILL), (126, KILL), (133, KILL), (259, KILL), (298, KILL)]

/-- sandbox.rs:484-490. -/
def entries (ds : List (Nat × Nat)) : List Insn := ds.flatMap fun d => [jump JEQ_K d.1 0 1, stmt RET_K d.2]

/-- sandbox.rs:470-494: the program. -/
def filter (ds : List (Nat × Nat)) : List Insn :=
  [stmt LD_W_ABS 4, jump JEQ_K X86_64 1 0, stmt RET_K KILL, stmt LD_W_ABS 0] ++ entries ds ++ [stmt RET_K ALLOW]

/-- The kernel's `struct seccomp_data`, its first two words (offsets 0 and 4; sandbox.rs:91-92). -/
structure Data where
  nr : Nat
  arch : Nat
deriving DecidableEq

/-- The classic BPF machine for loads, equality jumps and returns; anything else, and running off the end, is `none` (the kernel refuses such
programs). -/
def exec (d : Data) : Nat → List Insn → Option Nat
  | _, [] => none
  | a, i :: rest =>
    if i.code = LD_W_ABS then
      if i.k = 0 then exec d d.nr rest else if i.k = 4 then exec d d.arch rest else none
    else if i.code = JEQ_K then exec d a (rest.drop (if a = i.k then i.jt else i.jf))
    else if i.code = RET_K then some i.k
    else none
  termination_by _ l => l.length
  decreasing_by all_goals (simp only [List.length_cons, List.length_drop]; omega)

theorem exec_ret (d : Data) (a k : Nat) (rest : List Insn) : exec d a (stmt RET_K k :: rest) = some k := by
  rw [exec]; simp [stmt, RET_K, LD_W_ABS, JEQ_K]

theorem exec_jump (d : Data) (a k jt jf : Nat) (rest : List Insn) : exec d a (jump JEQ_K k jt jf :: rest) = exec d a (rest.drop (if a = k then jt else jf)) := by
  rw [exec]
  have h1 : (jump JEQ_K k jt jf).code ≠ LD_W_ABS := show JEQ_K ≠ LD_W_ABS by decide
  have h2 : (jump JEQ_K k jt jf).code = JEQ_K := rfl
  rw [if_neg h1, if_pos h2]
  rfl

theorem exec_nr (d : Data) (a : Nat) (rest : List Insn) : exec d a (stmt LD_W_ABS 0 :: rest) = exec d d.nr rest := by
  rw [exec]; simp [stmt]

theorem exec_arch (d : Data) (a : Nat) (rest : List Insn) : exec d a (stmt LD_W_ABS 4 :: rest) = exec d d.arch rest := by
  rw [exec]; simp [stmt]

theorem exec_entries (d : Data) (a : Nat) (ds : List (Nat × Nat)) :
    exec d a (entries ds ++ [stmt RET_K ALLOW]) = some (((ds.find? fun x => x.1 = a).map (·.2)).getD ALLOW) := by
  induction ds with
  | nil => exact exec_ret d a ALLOW []
  | cons x ds ih =>
    have : entries (x :: ds) ++ [stmt RET_K ALLOW] = jump JEQ_K x.1 0 1 :: stmt RET_K x.2 :: (entries ds ++ [stmt RET_K ALLOW]) := rfl
    rw [this, exec_jump]
    by_cases h : a = x.1
    · rw [if_pos h, List.drop_zero, exec_ret, List.find?_cons_of_pos (by simp [h])]
      rfl
    · rw [if_neg h]
      show exec d a (entries ds ++ [stmt RET_K ALLOW]) = _
      rw [ih, List.find?_cons_of_neg (by simpa using fun h' => h h'.symm)]

/-- **The filter computes the table**, for every table and every call: another architecture is killed; a call in the table gets its (first)
verdict; every other call is allowed. -/
theorem filter_spec (ds : List (Nat × Nat)) (d : Data) :
    exec d 0 (filter ds) = some (if d.arch = X86_64 then ((ds.find? fun x => x.1 = d.nr).map (·.2)).getD ALLOW else KILL) := by
  unfold filter
  show exec d 0 (stmt LD_W_ABS 4 :: jump JEQ_K X86_64 1 0 :: stmt RET_K KILL :: stmt LD_W_ABS 0 :: (entries ds ++ [stmt RET_K ALLOW])) = _
  rw [exec_arch, exec_jump]
  by_cases h : d.arch = X86_64
  · rw [if_pos h, if_pos h]
    show exec d d.arch (stmt LD_W_ABS 0 :: (entries ds ++ [stmt RET_K ALLOW])) = _
    rw [exec_nr, exec_entries]
  · rw [if_neg h, if_neg h]
    exact exec_ret _ _ _ _

/-! ### Specification: the calls, by the numbers of the x86-64 system call table -/

/-- socket, connect, accept, sendto, recvfrom, sendmsg, recvmsg, bind, listen, setsockopt, getsockopt, accept4. -/
def network : List Nat := [41, 42, 43, 44, 45, 46, 47, 49, 50, 54, 55, 288]

/-- ptrace, setuid, setgid, setreuid, setregid, setresuid, setresgid, capset, mknod, pivot_root, chroot, mount, umount2, mknodat,
perf_event_open. -/
def privileged : List Nat := [101, 105, 106, 113, 114, 117, 119, 126, 133, 155, 161, 165, 166, 259, 298]

theorem table (n : Nat) : ((denied.find? fun x => x.1 = n).map (·.2)).getD ALLOW = if n ∈ network then EPERM else if n ∈ privileged then KILL else ALLOW := by
  by_cases hn : n ∈ network
  · rw [if_pos hn]
    simp only [network, List.mem_cons, List.not_mem_nil, or_false] at hn
    rcases hn with rfl | rfl | rfl | rfl | rfl | rfl | rfl | rfl | rfl | rfl | rfl | rfl <;> rfl
  · rw [if_neg hn]
    by_cases hp : n ∈ privileged
    · rw [if_pos hp]
      simp only [privileged, List.mem_cons, List.not_mem_nil, or_false] at hp
      rcases hp with rfl | rfl | rfl | rfl | rfl | rfl | rfl | rfl | rfl | rfl | rfl | rfl | rfl | rfl | rfl <;> rfl
    · rw [if_neg hp]
      have : denied.find? (fun x => x.1 = n) = none := by
        rw [List.find?_eq_none]
        intro x hx hc
        have hxn : x.1 = n := by simpa using hc
        have hmem : ∀ x ∈ denied, x.1 ∈ network ∨ x.1 ∈ privileged := by decide
        rcases hmem x hx with h | h
        · exact hn (hxn ▸ h)
        · exact hp (hxn ▸ h)
      rw [this]
      rfl

/-- **The sandbox's verdict on every system call.** -/
theorem verdict (d : Data) : exec d 0 (filter denied) = some (if d.arch ≠ X86_64 then KILL else if d.nr ∈ network then EPERM else if d.nr ∈ privileged then KILL else ALLOW) := by
  rw [filter_spec, table]
  by_cases h : d.arch = X86_64
  · simp only [h, if_true, ne_eq, not_true_eq_false, if_false]
  · simp only [h, if_false, ne_eq, not_false_eq_true, if_true]

/-- The program fits its array (sandbox.rs:462-467) and the kernel's limit. -/
theorem fits : (filter denied).length = 4 + 27 * 2 + 1 ∧ (filter denied).length ≤ 4096 := by decide

/-- **Disagreement: the x32 numbers pass.** On x86-64 the kernel takes the same calls under the numbers with bit 30 set, with the same
architecture tag; the filter allows every one of them, `socket` and `ptrace` included. -/
theorem x32_allowed (n : Nat) : exec ⟨0x40000000 + n, X86_64⟩ 0 (filter denied) = some ALLOW := by
  rw [verdict]
  have h1 : 0x40000000 + n ∉ network := by
    intro h
    simp only [network, List.mem_cons, List.not_mem_nil, or_false] at h
    omega
  have h2 : 0x40000000 + n ∉ privileged := by
    intro h
    simp only [privileged, List.mem_cons, List.not_mem_nil, or_false] at h
    omega
  simp [h1, h2]

/-- io_uring_setup, sendmmsg, unshare and setns are not in the table. -/
theorem others_allowed (n : Nat) (h : n ∈ [425, 307, 272, 308]) : exec ⟨n, X86_64⟩ 0 (filter denied) = some ALLOW := by
  rw [verdict]
  simp only [List.mem_cons, List.not_mem_nil, or_false] at h
  rcases h with rfl | rfl | rfl | rfl <;> decide

/-! ### Applying it -/

/-- The child process as the restrictions change it. `closeRange`, `noPrivs` and `seccomp` say which kernel calls succeed. -/
structure Proc where
  fds : List Nat
  nnp : Bool
  filtered : Bool
  cpu : Option Nat
deriving DecidableEq

structure Kernel where
  closeRange : Bool
  noPrivs : Bool
  seccomp : Bool
  rlimit : Bool

/-- sandbox.rs:250-272. -/
def closeFds (k : Kernel) (p : Proc) : Proc :=
  if k.closeRange then { p with fds := p.fds.filter fun f => decide (f < 3) } else { p with fds := p.fds.filter fun f => decide (f < 3 ∨ f ≥ 1024) }

/-- sandbox.rs:201-204, 278-287. -/
def privileges (k : Kernel) (p : Proc) : Except Unit Proc :=
  if k.noPrivs then .ok { closeFds k p with nnp := true } else .error ()

/-- sandbox.rs:156-164 `apply`, on x86-64 or elsewhere (297-324). An error stops the plugin from starting (`pre_exec`). -/
def apply (k : Kernel) (x86 : Bool) (p : Proc) : Except Unit Proc :=
  match privileges k { p with cpu := if k.rlimit then some 300 else p.cpu } with
  | .error e => .error e
  | .ok q => if x86 then (if k.seccomp then .ok { q with filtered := true } else .error ()) else .ok q

/-- sandbox.rs:192-196. -/
def applyLongLived (k : Kernel) (p : Proc) : Except Unit Proc := privileges k p

/-- **A plugin that starts is restricted**: on x86-64 the filter is in place; it can gain no privileges; and where the kernel has
`close_range` it has inherited nothing but its three standard streams. -/
theorem apply_restricts (k : Kernel) (x86 : Bool) (p q : Proc) (h : apply k x86 p = .ok q) :
    q.nnp = true ∧ (x86 = true → q.filtered = true) ∧ (k.closeRange = true → ∀ f ∈ q.fds, f < 3) ∧ (∀ f ∈ q.fds, f < 3 ∨ f ≥ 1024) ∧ ∀ f ∈ p.fds, f < 3 → f ∈ q.fds := by
  unfold apply privileges at h
  by_cases hn : k.noPrivs = true
  · simp only [hn, if_true] at h
    have hfd : ∀ p' : Proc, (k.closeRange = true → ∀ f ∈ (closeFds k p').fds, f < 3) ∧ (∀ f ∈ (closeFds k p').fds, f < 3 ∨ f ≥ 1024) ∧ ∀ f ∈ p'.fds, f < 3 → f ∈ (closeFds k p').fds := by
      intro p'
      unfold closeFds
      cases hc : k.closeRange
      · simp only [Bool.false_eq_true, if_false]
        refine ⟨fun h => absurd h (by decide), fun f hf => by simpa using (List.mem_filter.1 hf).2, fun f hf h3 => List.mem_filter.2 ⟨hf, by simp [h3]⟩⟩
      · simp only [if_true]
        refine ⟨fun _ f hf => by simpa using (List.mem_filter.1 hf).2, fun f hf => Or.inl (by simpa using (List.mem_filter.1 hf).2), fun f hf h3 => List.mem_filter.2 ⟨hf, by simp [h3]⟩⟩
    obtain ⟨a, b, c⟩ := hfd { p with cpu := if k.rlimit = true then some 300 else p.cpu }
    cases x86
    · simp only [Bool.false_eq_true, if_false] at h
      injection h with h
      subst h
      exact ⟨rfl, fun h => absurd h (by decide), a, b, c⟩
    · simp only [if_true] at h
      by_cases hs : k.seccomp = true
      · simp only [hs, if_true] at h
        injection h with h
        subst h
        exact ⟨rfl, fun _ => rfl, a, b, c⟩
      · simp only [hs] at h
        cases h
  · simp only [hn] at h
    cases h

/-- **It fails closed**: if the privilege bit or, on x86-64, the filter cannot be set, the plugin does not start. -/
theorem apply_fails_closed (k : Kernel) (p : Proc) : (k.noPrivs = false → apply k true p = .error ()) ∧ (k.seccomp = false → apply k true p = .error ()) := by
  unfold apply privileges
  cases k.noPrivs <;> cases k.seccomp <;> simp

/-- A long-lived plugin gets no filter and no CPU limit. -/
theorem long_lived_unfiltered (k : Kernel) (p q : Proc) (h : applyLongLived k p = .ok q) : q.filtered = p.filtered ∧ q.cpu = p.cpu ∧ q.nnp = true := by
  unfold applyLongLived privileges at h
  split at h
  · injection h with h
    subst h
    unfold closeFds
    split <;> exact ⟨rfl, rfl, rfl⟩
  · cases h

/-- Disagreement: on a kernel without `close_range` a descriptor from 1024 up survives. -/
theorem high_fd_survives : ∃ q, apply ⟨false, true, true, true⟩ true ⟨[0, 1, 2, 7, 1500], false, false, none⟩ = .ok q ∧ q.fds = [0, 1, 2, 1500] := ⟨_, rfl, by decide⟩

example : exec ⟨41, X86_64⟩ 0 (filter denied) = some EPERM := by rw [verdict]; decide
example : exec ⟨0, X86_64⟩ 0 (filter denied) = some ALLOW := by rw [verdict]; decide
example : exec ⟨0, 3⟩ 0 (filter denied) = some KILL := by rw [verdict]; decide

end Horus.Sandbox
