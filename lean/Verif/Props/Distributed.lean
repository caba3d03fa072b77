import Mathlib.Tactic
import Verif.Model.Distributed
import Verif.Proofs.Except

/-!
# C85: processes of a distributed training
-/

namespace Qadence.Spec.Distributed

open Qadence.Distributed

/-- The processes can form a process group: each rank once, everyone expects as many processes as there are, and all meet at the
same place. -/
def Group (ps : List Proc) : Prop :=
  ps ≠ [] ∧ (ps.map (·.rank)).Perm (List.range ps.length) ∧ (∀ p ∈ ps, p.worldSize = ps.length) ∧
    ∀ p ∈ ps, ∀ q ∈ ps, p.addr = q.addr ∧ p.port = q.port

/-- An environment in which no launcher and no earlier training has left variables. -/
structure Fresh (env : Env) : Prop where
  elastic : env.elastic = false
  rank : env.rank = none
  worldSize : env.worldSize = none
  localRank : env.localRank = none
  addr : env.masterAddr = none
  port : env.masterPort = none

/-- The same script on the nodes `0 … K - 1` of a Slurm job: all processes. -/
def slurmJob (env : Env) (K : ℕ) (ms : ℕ → Machine) (nprocs : ℕ) (computeSetup logSetup : String) : Except PyErr (List Proc) := do
  let rs ← (List.range K).mapM fun k =>
    script { env with numNodes := some (.int K), nodeId := some (.int k) } (ms k) nprocs computeSetup logSetup
  return (rs.map Prod.fst).flatten

/-- The environment of process `r` of `W` started by torchrun; `l` is its index on its machine. -/
def torchEnv (env : Env) (W : ℕ) (addr port : Text) (r l : ℕ) : Env :=
  { env with elastic := true, rank := some (.int r), worldSize := some (.int W), localRank := some (.int l),
             masterAddr := some addr, masterPort := some port }

/-- The same script in `W` processes started by torchrun; `loc r` is the index of process `r` on its machine `ms r`. -/
def torchrunJob (env : Env) (W : ℕ) (loc : ℕ → ℕ) (addr port : Text) (ms : ℕ → Machine) (nprocs : ℕ) (computeSetup logSetup : String) :
    Except PyErr (List Proc) := do
  let rs ← (List.range W).mapM fun r => script (torchEnv env W addr port r (loc r)) (ms r) nprocs computeSetup logSetup
  return (rs.map Prod.fst).flatten

/-- The compute setup as documented: the GPU if asked for, or if there is one and nothing is asked for. -/
def computes (m : Machine) (setup : String) : Compute :=
  if setup = "gpu" ∨ (setup = "auto" ∧ 0 < m.gpus) then .gpu else .cpu

/-- One of the first hundred ports which are tried is free. -/
def HasPort (m : Machine) : Prop := ∃ i < 100, m.free (m.draw i) = true

/-- The logging device as documented. -/
def logOn (setup : String) (d : Device) : Device := if setup = "auto" then d else .cpu

end Qadence.Spec.Distributed

namespace Qadence.Distributed

open Qadence.Spec.Distributed

/-! ## Ports and devices -/

theorem pure_eq {α : Type} (a : α) : (pure a : Except PyErr α) = .ok a := rfl

theorem findPort_spec (m : Machine) : ∀ fuel i, (∃ k, k < fuel ∧ m.free (m.draw (i + k)) = true ∧
      (∀ j < k, m.free (m.draw (i + j)) = false) ∧ findPort m fuel i = .ok (m.draw (i + k))) ∨
    ((∀ k < fuel, m.free (m.draw (i + k)) = false) ∧ findPort m fuel i = .error .runtimeError)
  | 0, i => .inr ⟨by simp, rfl⟩
  | fuel + 1, i => by
    unfold findPort
    by_cases h : m.free (m.draw i) = true
    · left
      exact ⟨0, by omega, by simpa using h, by simp, by simp [h]⟩
    · rw [if_neg h]
      rcases findPort_spec m fuel (i + 1) with ⟨k, hk, hf, hl, he⟩ | ⟨hl, he⟩
      · left
        refine ⟨k + 1, by omega, by rwa [show i + (k + 1) = i + 1 + k by omega], fun j hj => ?_,
          by rwa [show i + (k + 1) = i + 1 + k by omega]⟩
        cases j with
        | zero => simpa using h
        | succ j => rw [show i + (j + 1) = i + 1 + j by omega]; exact hl j (by omega)
      · right
        refine ⟨fun k hk => ?_, he⟩
        cases k with
        | zero => simpa using h
        | succ k => rw [show i + (k + 1) = i + 1 + k by omega]; exact hl k (by omega)

/-- The port is the first free one of a hundred random ports; if none is free, a `RuntimeError` is raised. -/
theorem C85_port (m : Machine) :
    (HasPort m ↔ ∃ p, findPort m 100 0 = .ok p) ∧
    (∀ p, findPort m 100 0 = .ok p → m.free p = true ∧ ∃ i < 100, m.draw i = p ∧ ∀ j < i, m.free (m.draw j) = false) ∧
    (¬ HasPort m → findPort m 100 0 = .error .runtimeError) := by
  unfold HasPort
  rcases findPort_spec m 100 0 with ⟨k, hk, hf, hl, he⟩ | ⟨hl, he⟩
  · simp only [Nat.zero_add] at hf hl he
    refine ⟨⟨fun _ => ⟨_, he⟩, fun _ => ⟨k, hk, hf⟩⟩, fun p hp => ?_, fun h => absurd ⟨k, hk, hf⟩ h⟩
    rw [he] at hp
    cases hp
    exact ⟨hf, k, hk, rfl, hl⟩
  · simp only [Nat.zero_add] at hl
    refine ⟨⟨fun ⟨i, hi, hf⟩ => absurd hf (by simp [hl i hi]), fun ⟨p, hp⟩ => ?_⟩, fun p hp => ?_, fun _ => he⟩ <;>
    · rw [he] at hp
      cases hp

theorem setCompute_eq (m : Machine) (setup : String) (h : setup = "gpu" → 0 < m.gpus) : setCompute m setup = .ok (computes m setup) := by
  unfold setCompute computes
  by_cases h1 : setup = "gpu"
  · have := h h1
    rw [if_pos h1, if_neg (by omega), if_pos (.inl h1)]
  · rw [if_neg h1]
    by_cases h2 : setup = "auto"
    · rw [if_pos h2]
      by_cases h3 : m.gpus = 0
      · rw [if_pos h3, if_neg (by simp [h1, h3])]
      · rw [if_neg h3, if_pos (.inr ⟨h2, by omega⟩)]
    · rw [if_neg h2, if_neg (by simp [h1, h2])]

/-- Asking for a GPU where there is none is refused before anything is started. -/
theorem C85_no_gpu (env : Env) (m : Machine) (K k nprocs : ℕ) (logSetup : String) (h : m.gpus = 0)
    (hK : readInt env.numNodes 1 = .ok K) (hk : readInt env.nodeId 0 = .ok k) :
    script env m nprocs "gpu" logSetup = .error .runtimeError := by
  simp [script, accelerator, detect, hK, hk, setCompute, h, ok_bind, error_bind]

theorem detect_eq (env : Env) (m : Machine) (computeSetup logSetup : String) {K k : ℕ} (hK : readInt env.numNodes 1 = .ok K)
    (hk : readInt env.nodeId 0 = .ok k) (hg : computeSetup = "gpu" → 0 < m.gpus) {port : ℕ} (hp : findPort m 100 0 = .ok port) :
    detect env m computeSetup logSetup = .ok ⟨if env.elastic then .torchrun else .default, computes m computeSetup, logSetup,
      env.jobId, K, k, if m.gpus = 0 then 1 else m.gpus, port⟩ := by
  simp only [detect, hK, hk, setCompute_eq m computeSetup hg, hp, ok_bind, pure_eq]

theorem setDevice_cpu (m : Machine) (e : Execution) (l : Option ℕ) (hc : e.compute = .cpu) (hl : e.logSetup = "auto" ∨ e.logSetup = "cpu") :
    setDevice m e l = .ok (.cpu, logOn e.logSetup .cpu) := by
  unfold setDevice logOn
  rw [hc]
  rcases hl with h | h <;> simp [h, pure_eq, ok_bind]

theorem setDevice_gpu (m : Machine) (e : Execution) (l : ℕ) (hc : e.compute = .gpu) (hl : e.logSetup = "auto" ∨ e.logSetup = "cpu")
    (h : l < m.gpus) : setDevice m e (some l) = .ok (.cuda l, logOn e.logSetup (.cuda l)) := by
  unfold setDevice logOn
  rw [hc]
  rcases hl with h' | h' <;> simp [h, h', pure_eq, ok_bind]

/-- The address at which the processes of a fresh environment meet. -/
def meetAddr (env : Env) (m : Machine) : Text := (env.nodeList.bind m.scontrol).getD (.other "localhost")

/-- The port at which they meet. -/
def meetPort (jobId : Option ℕ) (port : ℕ) : Text :=
  match jobId with
  | none => .int port
  | some j => .int (12000 + j % 5000)

/-- A process of a fresh environment on CPU. -/
theorem setup_cpu {env : Env} (hf : Fresh env) (m : Machine) (e : Execution) (hk : e.kind = .default) (hc : e.compute = .cpu)
    (hl : e.logSetup = "auto" ∨ e.logSetup = "cpu") {j : Option ℕ} (hj : e.jobId = j.map .int) (nprocs p : ℕ) :
    setupProcess env m e nprocs p = .ok
      (⟨p, nprocs, none, .cpu, logOn e.logSetup .cpu, meetAddr env m, meetPort j e.port⟩,
        { env with rank := some (.int p), worldSize := some (.int nprocs), localRank := some (.other "None"),
                   masterAddr := some (meetAddr env m), masterPort := some (meetPort j e.port) }) := by
  have h1 : localRank env e p = .ok none := by simp [localRank, hc]
  have h2 : worldSize env nprocs = .ok nprocs := by simp [worldSize, hf.worldSize, readInt]
  have h3 : rank env e p = .ok p := by simp [rank, hc]
  simp only [setupProcess, h1, h2, h3, setDevice_cpu m e none hc hl, ok_bind, textOf]
  cases j <;> simp [masterAddr, masterPort, hf.addr, hf.port, hk, hj, meetAddr, meetPort, Text.toInt, ok_bind, pure_eq]

/-- A process of a fresh environment on GPU. -/
theorem setup_gpu {env : Env} (hf : Fresh env) (m : Machine) (e : Execution) (hk : e.kind = .default) (hc : e.compute = .gpu)
    (hl : e.logSetup = "auto" ∨ e.logSetup = "cpu") {j : Option ℕ} (hj : e.jobId = j.map .int) (nprocs p : ℕ) (hp : p < m.gpus) :
    setupProcess env m e nprocs p = .ok
      (⟨e.nodeRank * e.coresPerNode + p, nprocs, some p, .cuda p, logOn e.logSetup (.cuda p), meetAddr env m, meetPort j e.port⟩,
        { env with rank := some (.int (e.nodeRank * e.coresPerNode + p)), worldSize := some (.int nprocs),
                   localRank := some (.int p),
                   masterAddr := some (meetAddr env m), masterPort := some (meetPort j e.port) }) := by
  have h1 : localRank env e p = .ok (some p) := by simp [localRank, hc, hf.localRank, readInt, Except.map]
  have h2 : worldSize env nprocs = .ok nprocs := by simp [worldSize, hf.worldSize, readInt]
  have h3 : rank env e p = .ok (e.nodeRank * e.coresPerNode + p) := by
    simp only [rank, hc, hk, h1, ok_bind]
    by_cases h0 : p = 0 <;> simp [h0, pure_eq]
  simp only [setupProcess, h1, h2, h3, setDevice_gpu m e p hc hl hp, ok_bind, textOf]
  cases j <;> simp [masterAddr, masterPort, hf.addr, hf.port, hk, hj, meetAddr, meetPort, Text.toInt, ok_bind, pure_eq]

/-- A GPU which does not exist. -/
theorem setup_gpu_error {env : Env} (hf : Fresh env) (m : Machine) (e : Execution) (hk : e.kind = .default) (hc : e.compute = .gpu)
    (nprocs p : ℕ) (hp : m.gpus ≤ p) : setupProcess env m e nprocs p = .error .runtimeError := by
  have h1 : localRank env e p = .ok (some p) := by simp [localRank, hc, hf.localRank, readInt, Except.map]
  have h2 : worldSize env nprocs = .ok nprocs := by simp [worldSize, hf.worldSize, readInt]
  have h3 : ∃ r, rank env e p = .ok r := by
    simp only [rank, hc, hk, h1, ok_bind]
    by_cases h0 : p = 0 <;> simp [h0, pure_eq]
  obtain ⟨r, h3⟩ := h3
  simp only [setupProcess, h1, h2, h3, ok_bind, setDevice, hc, if_neg (Nat.not_lt.mpr hp), error_bind]

/-! ## A script on one node -/

/-- A process as documented, for node `k`. -/
def procAt (env : Env) (m : Machine) (c : Compute) (logSetup : String) (j : Option ℕ) (nprocs k port p : ℕ) : Proc :=
  match c with
  | .cpu => ⟨p, nprocs, none, .cpu, logOn logSetup .cpu, meetAddr env m, meetPort j port⟩
  | .gpu => ⟨k * (if m.gpus = 0 then 1 else m.gpus) + p, nprocs, some p, .cuda p, logOn logSetup (.cuda p), meetAddr env m,
      meetPort j port⟩

/-- The environment after `setup_process` in a process. -/
def envAfter (env : Env) (q : Proc) : Env :=
  { env with rank := some (.int q.rank), worldSize := some (.int q.worldSize), localRank := some (textOf q.localRank),
             masterAddr := some q.addr, masterPort := some q.port }

/-- How many processes a node runs. -/
def onNode (nprocs K : ℕ) : ℕ := if 1 < nprocs then if 1 < K then nprocs / K else nprocs else 1

theorem setup_eq {env : Env} (hf : Fresh env) (m : Machine) (e : Execution) (hk : e.kind = .default)
    (hl : e.logSetup = "auto" ∨ e.logSetup = "cpu") {j : Option ℕ} (hj : e.jobId = j.map .int) (nprocs p : ℕ)
    (hc : e.coresPerNode = if m.gpus = 0 then 1 else m.gpus) (hp : e.compute = .gpu → p < m.gpus) :
    setupProcess env m e nprocs p = .ok (procAt env m e.compute e.logSetup j nprocs e.nodeRank e.port p,
      envAfter env (procAt env m e.compute e.logSetup j nprocs e.nodeRank e.port p)) := by
  cases hcc : e.compute with
  | cpu => rw [setup_cpu hf m e hk hcc hl hj]; rfl
  | gpu => rw [setup_gpu hf m e hk hcc hl hj nprocs p (hp hcc), hc]; rfl

theorem accelerator_eq {env : Env} (hf : Fresh env) (m : Machine) (nprocs : ℕ) (computeSetup logSetup : String) {K k : ℕ}
    (hK : readInt env.numNodes 1 = .ok K) (hk : readInt env.nodeId 0 = .ok k) (hg : computeSetup = "gpu" → 0 < m.gpus) {port : ℕ}
    (hp : findPort m 100 0 = .ok port) :
    accelerator env m nprocs computeSetup logSetup = .ok ⟨⟨.default, computes m computeSetup, logSetup,
      env.jobId, K, k, if m.gpus = 0 then 1 else m.gpus, port⟩, nprocs, nprocs, nprocs⟩ := by
  unfold accelerator
  rw [detect_eq env m computeSetup logSetup hK hk hg hp, ok_bind, hf.elastic]
  simp [worldSize, hf.worldSize, readInt, ok_bind, pure_eq]

theorem script_eq {env : Env} (hf : Fresh env) (m : Machine) (nprocs : ℕ) (computeSetup logSetup : String) {K k : ℕ}
    (hK : readInt env.numNodes 1 = .ok K) (hk : readInt env.nodeId 0 = .ok k) (hg : computeSetup = "gpu" → 0 < m.gpus) {port : ℕ}
    (hp : findPort m 100 0 = .ok port) (hl : logSetup = "auto" ∨ logSetup = "cpu") {j : Option ℕ} (hj : env.jobId = j.map .int)
    (hn : computes m computeSetup = .gpu → onNode nprocs K ≤ m.gpus) :
    script env m nprocs computeSetup logSetup =
      .ok ((List.range (onNode nprocs K)).map (procAt env m (computes m computeSetup) logSetup j nprocs k port),
        if 1 < nprocs then env
        else envAfter env (procAt env m (computes m computeSetup) logSetup j nprocs k port 0)) := by
  unfold script
  rw [accelerator_eq hf m nprocs computeSetup logSetup hK hk hg hp, ok_bind]
  unfold spawn
  by_cases h1 : 1 < nprocs
  · have hs : ∀ p ∈ List.range (onNode nprocs K), setupProcess env m ⟨.default, computes m computeSetup, logSetup,
        env.jobId, K, k, if m.gpus = 0 then 1 else m.gpus, port⟩ nprocs p =
        .ok (procAt env m (computes m computeSetup) logSetup j nprocs k port p,
          envAfter env (procAt env m (computes m computeSetup) logSetup j nprocs k port p)) := fun p hp' =>
      setup_eq hf m _ rfl hl hj nprocs p rfl fun h => lt_of_lt_of_le (List.mem_range.mp hp') (hn h)
    have hon : onNode nprocs K = if 1 < K then nprocs / K else nprocs := by rw [onNode, if_pos h1]
    rw [if_pos ⟨rfl, h1⟩, if_pos h1]
    dsimp only
    rw [← hon, mapM_ok_map hs, ok_bind, pure_eq, List.map_map]
    rfl
  · have hon : onNode nprocs K = 1 := by rw [onNode, if_neg h1]
    rw [if_neg (by simp [h1]), if_neg h1, hon]
    dsimp only
    rw [setup_eq hf m _ rfl hl hj nprocs 0 rfl fun h => by have := hn h; omega, ok_bind, pure_eq]
    rfl

theorem procAt_world (env : Env) (m : Machine) (c : Compute) (logSetup : String) (j : Option ℕ) (nprocs k port p : ℕ) :
    (procAt env m c logSetup j nprocs k port p).worldSize = nprocs := by
  cases c <;> rfl

theorem procAt_meet (env : Env) (m : Machine) (c : Compute) (logSetup : String) (j : Option ℕ) (nprocs k port p : ℕ) :
    (procAt env m c logSetup j nprocs k port p).addr = meetAddr env m ∧
      (procAt env m c logSetup j nprocs k port p).port = meetPort j port := by
  cases c <;> exact ⟨rfl, rfl⟩

theorem procAt_rank0 (env : Env) (m : Machine) (c : Compute) (logSetup : String) (j : Option ℕ) (nprocs port p : ℕ) :
    (procAt env m c logSetup j nprocs 0 port p).rank = p := by
  cases c <;> simp [procAt]

/-- The script on one node, from a fresh environment: exactly the configured number of processes, which can form a group; process
`r` computes on the CPU or on the GPU number `r`, and logs there or on the CPU. -/
theorem C85_single_node {env : Env} (hf : Fresh env) (m : Machine) (nprocs : ℕ) (h0 : 0 < nprocs) (computeSetup logSetup : String)
    (hK : readInt env.numNodes 1 = .ok 1) (hk : readInt env.nodeId 0 = .ok 0) (hg : computeSetup = "gpu" → 0 < m.gpus)
    (hp : HasPort m) (hl : logSetup = "auto" ∨ logSetup = "cpu") {j : Option ℕ} (hj : env.jobId = j.map .int)
    (hn : computes m computeSetup = .gpu → nprocs ≤ m.gpus) :
    ∃ ps env', script env m nprocs computeSetup logSetup = .ok (ps, env') ∧ ps.length = nprocs ∧ Group ps ∧
      ∀ p ∈ ps, p.device = (match computes m computeSetup with
        | .cpu => Device.cpu
        | .gpu => .cuda p.rank) ∧ p.logDevice = logOn logSetup p.device := by
  obtain ⟨port, hport⟩ := (C85_port m).1.mp hp
  have hon : onNode nprocs 1 = nprocs := by
    unfold onNode
    split
    · simp
    · omega
  have := script_eq hf m nprocs computeSetup logSetup hK hk hg hport hl hj (by rwa [hon])
  rw [hon] at this
  refine ⟨_, _, this, by simp, ⟨?_, ?_, ?_, ?_⟩, ?_⟩
  · simp; omega
  · rw [List.length_map, List.length_range, List.map_map]
    refine .of_eq ?_
    conv_rhs => rw [← List.map_id (List.range nprocs)]
    exact List.map_congr_left fun p _ => procAt_rank0 ..
  · intro q hq
    obtain ⟨p, _, rfl⟩ := List.mem_map.mp hq
    rw [procAt_world]
    simp
  · intro q hq q' hq'
    obtain ⟨p, _, rfl⟩ := List.mem_map.mp hq
    obtain ⟨p', _, rfl⟩ := List.mem_map.mp hq'
    simp [procAt_meet]
  · intro q hq
    obtain ⟨p, _, rfl⟩ := List.mem_map.mp hq
    cases hc : computes m computeSetup <;> simp [procAt]

theorem mapM_error {α β : Type} {f : α → Except PyErr β} {e : PyErr} {l : List α} (h : ∀ a ∈ l, (∃ b, f a = .ok b) ∨ f a = .error e)
    (h' : ∃ a ∈ l, f a = .error e) : l.mapM f = .error e := by
  induction l with
  | nil => simp at h'
  | cons a l ih =>
    rw [List.mapM_cons]
    rcases h a List.mem_cons_self with ⟨b, hb⟩ | hb
    · rw [hb, ok_bind, ih (fun a ha => h a (List.mem_cons_of_mem _ ha)), error_bind]
      obtain ⟨a', ha', he⟩ := h'
      rcases List.mem_cons.mp ha' with rfl | ha'
      · rw [hb] at he; cases he
      · exact ⟨a', ha', he⟩
    · rw [hb, error_bind]

/-- More processes than GPUs on the node are refused. -/
theorem C85_too_many {env : Env} (hf : Fresh env) (m : Machine) (nprocs : ℕ) (computeSetup logSetup : String)
    (hK : readInt env.numNodes 1 = .ok 1) {k : ℕ} (hk : readInt env.nodeId 0 = .ok k) (hg : 0 < m.gpus)
    (hc : computeSetup = "gpu" ∨ computeSetup = "auto")
    (hp : HasPort m) (hl : logSetup = "auto" ∨ logSetup = "cpu") {j : Option ℕ} (hj : env.jobId = j.map .int) (hn : m.gpus < nprocs) :
    script env m nprocs computeSetup logSetup = .error .runtimeError := by
  obtain ⟨port, hport⟩ := (C85_port m).1.mp hp
  have hcomp : computes m computeSetup = .gpu := by
    unfold computes
    rw [if_pos]
    rcases hc with h | h
    · exact .inl h
    · exact .inr ⟨h, hg⟩
  unfold script
  rw [accelerator_eq hf m nprocs computeSetup logSetup hK hk (fun _ => hg) hport, ok_bind]
  unfold spawn
  rw [if_pos ⟨rfl, by dsimp only; omega⟩]
  dsimp only
  rw [if_neg (by omega), mapM_error (e := .runtimeError), error_bind]
  · intro p _
    by_cases hpg : p < m.gpus
    · exact .inl ⟨_, setup_gpu hf m _ rfl hcomp hl hj nprocs p hpg⟩
    · exact .inr (setup_gpu_error hf m _ rfl hcomp nprocs p (by omega))
  · exact ⟨m.gpus, List.mem_range.mpr hn, setup_gpu_error hf m _ rfl hcomp nprocs _ le_rfl⟩

/-! ## Several nodes -/

theorem fresh_onNode {env : Env} (hf : Fresh env) (K k : ℕ) : Fresh { env with numNodes := some (.int K), nodeId := some (.int k) } :=
  ⟨hf.elastic, hf.rank, hf.worldSize, hf.localRank, hf.addr, hf.port⟩

theorem range_flatten (g : ℕ) : ∀ K : ℕ, ((List.range K).map fun k => (List.range g).map fun p => k * g + p).flatten = List.range (K * g)
  | 0 => by simp
  | K + 1 => by
    rw [List.range_succ, List.map_append, List.flatten_append, range_flatten g K, Nat.succ_mul, List.range_add]
    simp

theorem slurmJob_eq {env : Env} (hf : Fresh env) {K : ℕ} (ms : ℕ → Machine) (nprocs : ℕ) (computeSetup logSetup : String)
    (hg : ∀ k < K, computeSetup = "gpu" → 0 < (ms k).gpus) {port : ℕ → ℕ} (hp : ∀ k < K, findPort (ms k) 100 0 = .ok (port k))
    (hl : logSetup = "auto" ∨ logSetup = "cpu") {j : Option ℕ} (hj : env.jobId = j.map .int)
    (hn : ∀ k < K, computes (ms k) computeSetup = .gpu → onNode nprocs K ≤ (ms k).gpus) :
    slurmJob env K ms nprocs computeSetup logSetup = .ok ((List.range K).map fun k => (List.range (onNode nprocs K)).map
      (procAt env (ms k) (computes (ms k) computeSetup) logSetup j nprocs k (port k))).flatten := by
  unfold slurmJob
  have hs : ∀ k ∈ List.range K, script { env with numNodes := some (.int K), nodeId := some (.int k) } (ms k) nprocs computeSetup logSetup =
      .ok ((List.range (onNode nprocs K)).map (procAt env (ms k) (computes (ms k) computeSetup) logSetup j nprocs k (port k)),
        if 1 < nprocs then { env with numNodes := some (.int K), nodeId := some (.int k) }
        else envAfter { env with numNodes := some (.int K), nodeId := some (.int k) }
          (procAt env (ms k) (computes (ms k) computeSetup) logSetup j nprocs k (port k) 0)) := fun k hk => by
    have hk := List.mem_range.mp hk
    rw [script_eq (fresh_onNode hf K k) (ms k) nprocs computeSetup logSetup (K := K) (k := k) rfl rfl (hg k hk) (hp k hk) hl hj (hn k hk)]
    rfl
  rw [mapM_ok_map hs, ok_bind, pure_eq, List.map_map]
  rfl

/-- The documented use on several nodes: every node has `g` GPUs and `nprocs` is the number of all GPUs. All processes of the job form
a group, provided that all nodes get the same name of the head node and the job has a number. -/
theorem C85_multi_node {env : Env} (hf : Fresh env) {K g : ℕ} (hK : 0 < K) (hg0 : 0 < g) (ms : ℕ → Machine)
    (hgp : ∀ k < K, (ms k).gpus = g) (computeSetup logSetup : String) (hc : computeSetup = "gpu" ∨ computeSetup = "auto")
    (hp : ∀ k < K, HasPort (ms k)) (hl : logSetup = "auto" ∨ logSetup = "cpu") {j : ℕ} (hj : env.jobId = some (.int j))
    {head : Text} (hh : ∀ k < K, env.nodeList.bind (ms k).scontrol = some head) :
    ∃ ps, slurmJob env K ms (K * g) computeSetup logSetup = .ok ps ∧ ps.length = K * g ∧ Group ps ∧
      (∀ p ∈ ps, p.localRank = some (p.rank % g) ∧ p.device = .cuda (p.rank % g)) ∧
      ∀ p ∈ ps, p.addr = head ∧ p.port = .int (12000 + j % 5000) := by
  choose! port hport using fun k hk => (C85_port (ms k)).1.mp (hp k hk)
  have hcomp : ∀ k < K, computes (ms k) computeSetup = .gpu := fun k hk => by
    unfold computes
    rw [if_pos]
    rcases hc with h | h
    · exact .inl h
    · exact .inr ⟨h, by rw [hgp k hk]; exact hg0⟩
  have hon : onNode (K * g) K = g := by
    unfold onNode
    by_cases h1 : 1 < K
    · have : 1 < K * g := by nlinarith
      rw [if_pos this, if_pos h1, Nat.mul_div_cancel_left _ hK]
    · have : K = 1 := by omega
      subst this
      simp only [Nat.one_mul]
      split
      · simp
      · omega
  have hjob := slurmJob_eq hf (K := K) ms (K * g) computeSetup logSetup (fun k hk _ => by rw [hgp k hk]; exact hg0) hport hl
    (j := some j) (by simpa using hj) (fun k hk _ => by rw [hon, hgp k hk])
  rw [hon] at hjob
  have hmem : ∀ q ∈ ((List.range K).map fun k => (List.range g).map
      (procAt env (ms k) (computes (ms k) computeSetup) logSetup (some j) (K * g) k (port k))).flatten,
      ∃ k < K, ∃ p < g, q = ⟨k * g + p, K * g, some p, .cuda p, logOn logSetup (.cuda p), head, .int (12000 + j % 5000)⟩ := by
    intro q hq
    obtain ⟨l, hl', hq⟩ := List.mem_flatten.mp hq
    obtain ⟨k, hk, rfl⟩ := List.mem_map.mp hl'
    obtain ⟨p, hp', rfl⟩ := List.mem_map.mp hq
    have hk := List.mem_range.mp hk
    refine ⟨k, hk, p, List.mem_range.mp hp', ?_⟩
    rw [hcomp k hk]
    simp only [procAt, meetPort, meetAddr, hh k hk, hgp k hk, Option.getD_some]
    rw [if_neg (by omega)]
  have hlen : ((List.range K).map fun k => (List.range g).map
      (procAt env (ms k) (computes (ms k) computeSetup) logSetup (some j) (K * g) k (port k))).flatten.length = K * g := by
    simp [Function.comp_def]
  refine ⟨_, hjob, hlen, ⟨?_, ?_, ?_, ?_⟩, ?_, ?_⟩
  · intro h
    rw [h] at hlen
    have : 0 < K * g := Nat.mul_pos hK hg0
    simp at hlen
    omega
  · rw [hlen, ← range_flatten g K, List.map_flatten, List.map_map]
    refine .of_eq (congrArg _ (List.map_congr_left fun k hk => ?_))
    have hk := List.mem_range.mp hk
    simp only [Function.comp, List.map_map]
    refine List.map_congr_left fun p _ => ?_
    simp only [Function.comp, hcomp k hk, procAt, hgp k hk]
    rw [if_neg (by omega)]
  · intro q hq
    obtain ⟨k, _, p, _, rfl⟩ := hmem q hq
    exact hlen.symm
  · intro q hq q' hq'
    obtain ⟨k, _, p, _, rfl⟩ := hmem q hq
    obtain ⟨k', _, p', _, rfl⟩ := hmem q' hq'
    exact ⟨rfl, rfl⟩
  · intro q hq
    obtain ⟨k, _, p, hp', rfl⟩ := hmem q hq
    simp [Nat.mod_eq_of_lt hp']
  · intro q hq
    obtain ⟨k, _, p, hp', rfl⟩ := hmem q hq
    exact ⟨rfl, rfl⟩

/-- With fewer processes per node than GPUs the ranks have gaps, so that the processes do not form a group. -/
theorem C85_counterexample_idle_gpus {env : Env} (hf : Fresh env) {K g n : ℕ} (hK : 1 < K) (hn : 0 < n) (hng : n < g)
    (ms : ℕ → Machine) (hgp : ∀ k < K, (ms k).gpus = g) (computeSetup logSetup : String)
    (hc : computeSetup = "gpu" ∨ computeSetup = "auto") (hp : ∀ k < K, HasPort (ms k)) (hl : logSetup = "auto" ∨ logSetup = "cpu")
    {j : Option ℕ} (hj : env.jobId = j.map .int) :
    ∃ ps, slurmJob env K ms (K * n) computeSetup logSetup = .ok ps ∧ ps.length = K * n ∧ ¬ Group ps := by
  choose! port hport using fun k hk => (C85_port (ms k)).1.mp (hp k hk)
  have hcomp : ∀ k < K, computes (ms k) computeSetup = .gpu := fun k hk => by
    unfold computes
    rw [if_pos]
    rcases hc with h | h
    · exact .inl h
    · exact .inr ⟨h, by rw [hgp k hk]; omega⟩
  have hon : onNode (K * n) K = n := by
    unfold onNode
    have : 1 < K * n := by nlinarith
    rw [if_pos this, if_pos hK, Nat.mul_div_cancel_left _ (by omega)]
  have hjob := slurmJob_eq hf (K := K) ms (K * n) computeSetup logSetup (fun k hk _ => by rw [hgp k hk]; omega) hport hl hj
    (fun k hk _ => by rw [hon, hgp k hk]; omega)
  rw [hon] at hjob
  have hlen : ((List.range K).map fun k => (List.range n).map
      (procAt env (ms k) (computes (ms k) computeSetup) logSetup j (K * n) k (port k))).flatten.length = K * n := by
    simp [Function.comp_def]
  refine ⟨_, hjob, hlen, fun h => ?_⟩
  have hin : (K - 1) * g + (n - 1) ∈ List.range (K * n) := by
    rw [← hlen]
    refine h.2.1.mem_iff.mp (List.mem_map.mpr ⟨procAt env (ms (K - 1)) (computes (ms (K - 1)) computeSetup) logSetup j (K * n) (K - 1)
      (port (K - 1)) (n - 1), List.mem_flatten.mpr ⟨_, List.mem_map.mpr ⟨K - 1, List.mem_range.mpr (by omega), rfl⟩,
        List.mem_map.mpr ⟨n - 1, List.mem_range.mpr (by omega), rfl⟩⟩, ?_⟩)
    simp only [hcomp (K - 1) (by omega), procAt, hgp (K - 1) (by omega)]
    rw [if_neg (by omega)]
  have hin := List.mem_range.mp hin
  obtain ⟨a, rfl⟩ : ∃ a, K = a + 2 := ⟨K - 2, by omega⟩
  obtain ⟨b, rfl⟩ : ∃ b, g = n + 1 + b := ⟨g - n - 1, by omega⟩
  obtain ⟨c, rfl⟩ : ∃ c, n = c + 1 := ⟨n - 1, by omega⟩
  simp only [show a + 2 - 1 = a + 1 by omega, Nat.add_sub_cancel] at hin
  nlinarith

/-- If the number of processes is not a multiple of the number of nodes, fewer processes are started than all of them wait for. -/
theorem C85_counterexample_remainder {env : Env} (hf : Fresh env) {K nprocs : ℕ} (hK : 1 < K) (hn : 1 < nprocs) (hd : ¬ K ∣ nprocs)
    (ms : ℕ → Machine) (computeSetup logSetup : String) (hg : ∀ k < K, computeSetup = "gpu" → 0 < (ms k).gpus)
    (hgp : ∀ k < K, computes (ms k) computeSetup = .gpu → nprocs / K ≤ (ms k).gpus) (hp : ∀ k < K, HasPort (ms k))
    (hl : logSetup = "auto" ∨ logSetup = "cpu") {j : Option ℕ} (hj : env.jobId = j.map .int) :
    ∃ ps, slurmJob env K ms nprocs computeSetup logSetup = .ok ps ∧ ps.length < nprocs ∧ (∀ p ∈ ps, p.worldSize = nprocs) ∧ ¬ Group ps := by
  choose! port hport using fun k hk => (C85_port (ms k)).1.mp (hp k hk)
  have hon : onNode nprocs K = nprocs / K := by
    unfold onNode
    rw [if_pos hn, if_pos hK]
  have hjob := slurmJob_eq hf (K := K) ms nprocs computeSetup logSetup hg hport hl hj (by rwa [hon])
  rw [hon] at hjob
  have hlen : ((List.range K).map fun k => (List.range (nprocs / K)).map
      (procAt env (ms k) (computes (ms k) computeSetup) logSetup j nprocs k (port k))).flatten.length = K * (nprocs / K) := by
    simp [Function.comp_def]
  have hlt : K * (nprocs / K) < nprocs := lt_of_le_of_ne (Nat.mul_div_le _ _) fun h => hd ⟨_, h.symm⟩
  have hw : ∀ q ∈ ((List.range K).map fun k => (List.range (nprocs / K)).map
      (procAt env (ms k) (computes (ms k) computeSetup) logSetup j nprocs k (port k))).flatten, q.worldSize = nprocs := by
    intro q hq
    obtain ⟨l, hl', hq⟩ := List.mem_flatten.mp hq
    obtain ⟨k, hk, rfl⟩ := List.mem_map.mp hl'
    obtain ⟨p, hp', rfl⟩ := List.mem_map.mp hq
    exact procAt_world ..
  refine ⟨_, hjob, by rwa [hlen], hw, fun h => ?_⟩
  obtain ⟨q, hq⟩ := List.exists_mem_of_ne_nil _ h.1
  have h1 := hw q hq
  have h2 := h.2.2.1 q hq
  rw [hlen] at h2
  omega

/-- On CPUs the ranks of every node start from 0, so that processes of several nodes never form a group. -/
theorem C85_counterexample_cpu_nodes {env : Env} (hf : Fresh env) {K n : ℕ} (hK : 1 < K) (hn : 0 < n) (ms : ℕ → Machine)
    (logSetup : String) (hp : ∀ k < K, HasPort (ms k)) (hl : logSetup = "auto" ∨ logSetup = "cpu")
    {j : Option ℕ} (hj : env.jobId = j.map .int) :
    ∃ ps, slurmJob env K ms (K * n) "cpu" logSetup = .ok ps ∧ ps.length = K * n ∧ ¬ (ps.map (·.rank)).Nodup ∧ ¬ Group ps := by
  choose! port hport using fun k hk => (C85_port (ms k)).1.mp (hp k hk)
  have hcomp : ∀ k, computes (ms k) "cpu" = .cpu := fun k => by simp [computes]
  have hon : onNode (K * n) K = n := by
    unfold onNode
    have : 1 < K * n := by nlinarith
    rw [if_pos this, if_pos hK, Nat.mul_div_cancel_left _ (by omega)]
  have hjob := slurmJob_eq hf (K := K) ms (K * n) "cpu" logSetup (by simp) hport hl hj (fun k _ h => by rw [hcomp k] at h; cases h)
  rw [hon] at hjob
  have hlen : ((List.range K).map fun k => (List.range n).map
      (procAt env (ms k) (computes (ms k) "cpu") logSetup j (K * n) k (port k))).flatten.length = K * n := by
    simp [Function.comp_def]
  have hnd : ¬ ((((List.range K).map fun k => (List.range n).map
      (procAt env (ms k) (computes (ms k) "cpu") logSetup j (K * n) k (port k))).flatten).map (·.rank)).Nodup := by
    rw [List.map_flatten, List.map_map]
    intro h
    have h := (List.nodup_flatten.mp h).2
    obtain ⟨a, rfl⟩ : ∃ a, K = a + 2 := ⟨K - 2, by omega⟩
    rw [List.pairwise_map, List.range_succ_eq_map, List.range_succ_eq_map, List.map_cons, List.pairwise_cons] at h
    refine (h.1 1 (by simp)) (a := 0) ?_ ?_ <;>
    · simp only [Function.comp, List.map_map, List.mem_map, List.mem_range]
      exact ⟨0, hn, by simp [hcomp, procAt]⟩
  exact ⟨_, hjob, hlen, hnd, fun h => hnd (h.2.1.nodup_iff.mpr List.nodup_range)⟩

/-! ## torchrun -/

theorem torch_script (env : Env) (he : env.elastic = true) {m : Machine} {r W l : ℕ} {addr port : Text} (hr : env.rank = some (.int r))
    (hW : env.worldSize = some (.int W)) (hloc : env.localRank = some (.int l)) (ha : env.masterAddr = some addr)
    (hpo : env.masterPort = some port) {K k : ℕ} (hK : readInt env.numNodes 1 = .ok K) (hk : readInt env.nodeId 0 = .ok k)
    (nprocs : ℕ) (computeSetup logSetup : String) (hg : computeSetup = "gpu" → 0 < m.gpus) (hp : HasPort m)
    (hl : logSetup = "auto" ∨ logSetup = "cpu") (hlr : computes m computeSetup = .gpu → l < m.gpus) :
    ∃ env', script env m nprocs computeSetup logSetup = .ok ([match computes m computeSetup with
      | .cpu => (⟨0, W, none, .cpu, logOn logSetup .cpu, addr, port⟩ : Proc)
      | .gpu => ⟨r, W, some l, .cuda l, logOn logSetup (.cuda l), addr, port⟩], env') := by
  obtain ⟨pt, hport⟩ := (C85_port m).1.mp hp
  unfold script accelerator
  rw [detect_eq env m computeSetup logSetup hK hk hg hport, ok_bind, he]
  simp only [worldSize, hW, readInt, Text.toInt, ok_bind, pure_eq, if_true]
  unfold spawn
  rw [if_neg (by simp)]
  cases hc : computes m computeSetup with
  | cpu =>
    simp only [setupProcess, localRank, rank, worldSize, hW, readInt, Text.toInt, ok_bind, setDevice_cpu m ⟨.torchrun, .cpu, logSetup,
      env.jobId, K, k, if m.gpus = 0 then 1 else m.gpus, pt⟩ none rfl hl, masterAddr, masterPort, ha, hpo, pure_eq]
    exact ⟨_, rfl⟩
  | gpu =>
    simp only [setupProcess, localRank, rank, worldSize, hW, hr, hloc, readInt, Text.toInt, ok_bind, Except.map,
      setDevice_gpu m ⟨.torchrun, .gpu, logSetup,
      env.jobId, K, k, if m.gpus = 0 then 1 else m.gpus, pt⟩ l rfl hl (hlr hc), masterAddr, masterPort, ha, hpo, pure_eq]
    exact ⟨_, rfl⟩

theorem torchrunJob_eq (env : Env) {W : ℕ} (loc : ℕ → ℕ) (addr port : Text) (ms : ℕ → Machine) (nprocs : ℕ)
    (computeSetup logSetup : String) {K k : ℕ} (hK : readInt env.numNodes 1 = .ok K) (hk : readInt env.nodeId 0 = .ok k)
    (hg : ∀ r < W, computeSetup = "gpu" → 0 < (ms r).gpus) (hp : ∀ r < W, HasPort (ms r))
    (hl : logSetup = "auto" ∨ logSetup = "cpu") (hlr : ∀ r < W, computes (ms r) computeSetup = .gpu → loc r < (ms r).gpus) :
    torchrunJob env W loc addr port ms nprocs computeSetup logSetup = .ok ((List.range W).map fun r => match computes (ms r) computeSetup with
      | .cpu => (⟨0, W, none, .cpu, logOn logSetup .cpu, addr, port⟩ : Proc)
      | .gpu => ⟨r, W, some (loc r), .cuda (loc r), logOn logSetup (.cuda (loc r)), addr, port⟩) := by
  unfold torchrunJob
  have hs : ∀ r < W, ∃ env', script (torchEnv env W addr port r (loc r)) (ms r) nprocs computeSetup logSetup =
      .ok ([match computes (ms r) computeSetup with
      | .cpu => (⟨0, W, none, .cpu, logOn logSetup .cpu, addr, port⟩ : Proc)
      | .gpu => ⟨r, W, some (loc r), .cuda (loc r), logOn logSetup (.cuda (loc r)), addr, port⟩], env') := fun r hr =>
    torch_script (torchEnv env W addr port r (loc r)) rfl rfl rfl rfl rfl rfl hK hk nprocs computeSetup logSetup (hg r hr) (hp r hr) hl (hlr r hr)
  have : Nonempty Env := ⟨env⟩
  choose! e' he' using hs
  rw [mapM_ok_map fun r hr => he' r (List.mem_range.mp hr), ok_bind, pure_eq, List.map_map]
  congr 1
  generalize List.range W = rs
  induction rs with
  | nil => rfl
  | cons r rs ih => simp only [List.map_cons, List.flatten_cons, Function.comp, List.singleton_append] at ih ⊢; rw [ih]

/-- Under torchrun with GPUs the processes form a group with the ranks and devices given by torchrun, whatever `nprocs` says. -/
theorem C85_torchrun (env : Env) {W : ℕ} (h0 : 0 < W) (loc : ℕ → ℕ) (addr port : Text) (ms : ℕ → Machine) (nprocs : ℕ)
    (computeSetup logSetup : String) {K k : ℕ} (hK : readInt env.numNodes 1 = .ok K) (hk : readInt env.nodeId 0 = .ok k)
    (hp : ∀ r < W, HasPort (ms r)) (hl : logSetup = "auto" ∨ logSetup = "cpu") (hc : computeSetup = "gpu" ∨ computeSetup = "auto")
    (hlr : ∀ r < W, loc r < (ms r).gpus) :
    ∃ ps, torchrunJob env W loc addr port ms nprocs computeSetup logSetup = .ok ps ∧ Group ps ∧ ps.length = W ∧
      ∀ p ∈ ps, p.localRank = some (loc p.rank) ∧ p.device = .cuda (loc p.rank) ∧ p.addr = addr ∧ p.port = port := by
  have hcomp : ∀ r < W, computes (ms r) computeSetup = .gpu := fun r hr => by
    have := hlr r hr
    unfold computes
    rw [if_pos]
    rcases hc with h | h
    · exact .inl h
    · exact .inr ⟨h, by omega⟩
  have hjob := torchrunJob_eq env (W := W) loc addr port ms nprocs computeSetup logSetup hK hk
    (fun r hr _ => by have := hlr r hr; omega) hp hl (fun r hr _ => hlr r hr)
  have heq : ((List.range W).map fun r => match computes (ms r) computeSetup with
      | .cpu => (⟨0, W, none, .cpu, logOn logSetup .cpu, addr, port⟩ : Proc)
      | .gpu => ⟨r, W, some (loc r), .cuda (loc r), logOn logSetup (.cuda (loc r)), addr, port⟩) =
      (List.range W).map fun r => ⟨r, W, some (loc r), .cuda (loc r), logOn logSetup (.cuda (loc r)), addr, port⟩ :=
    List.map_congr_left fun r hr => by rw [hcomp r (List.mem_range.mp hr)]
  rw [heq] at hjob
  refine ⟨_, hjob, ⟨?_, ?_, ?_, ?_⟩, by simp, ?_⟩
  · simp; omega
  · rw [List.map_map, List.length_map, List.length_range]
    refine .of_eq ?_
    conv_rhs => rw [← List.map_id (List.range W)]
    rfl
  · intro q hq
    obtain ⟨r, _, rfl⟩ := List.mem_map.mp hq
    simp
  · intro q hq q' hq'
    obtain ⟨r, _, rfl⟩ := List.mem_map.mp hq
    obtain ⟨r', _, rfl⟩ := List.mem_map.mp hq'
    exact ⟨rfl, rfl⟩
  · intro q hq
    obtain ⟨r, _, rfl⟩ := List.mem_map.mp hq
    exact ⟨rfl, rfl, rfl, rfl⟩

/-- Under torchrun one process is run per start of the script, whatever the configuration says; without `WORLD_SIZE` it is alone. -/
theorem C85_torchrun_nprocs (env : Env) (he : env.elastic = true) (m : Machine) (nprocs : ℕ) (computeSetup logSetup : String) (a : Accelerator)
    (h : accelerator env m nprocs computeSetup logSetup = .ok a) :
    a.nprocs = 1 ∧ a.configNprocs = nprocs ∧ (env.worldSize = none → a.worldSize = 1) ∧
      ∀ W, env.worldSize = some (.int W) → a.worldSize = W := by
  unfold accelerator at h
  obtain ⟨e, he', h⟩ := bind_ok h
  have hk : e.kind = .torchrun := by
    unfold detect at he'
    obtain ⟨_, _, he'⟩ := bind_ok he'
    obtain ⟨_, _, he'⟩ := bind_ok he'
    obtain ⟨_, _, he'⟩ := bind_ok he'
    obtain ⟨_, _, he'⟩ := bind_ok he'
    rw [← pure_ok he', he]
    rfl
  rw [hk] at h
  obtain ⟨w, hw, h⟩ := bind_ok h
  have h := pure_ok h
  subst h
  refine ⟨rfl, rfl, fun h => ?_, fun W h => ?_⟩ <;>
  · rw [worldSize, h] at hw
    injection hw with hw
    exact hw.symm

/-- Under torchrun on CPUs every process takes rank 0: two or more processes never form a group. -/
theorem C85_counterexample_torchrun_cpu (env : Env) {W : ℕ} (h1 : 1 < W) (loc : ℕ → ℕ) (addr port : Text) (ms : ℕ → Machine) (nprocs : ℕ)
    (logSetup : String) {K k : ℕ} (hK : readInt env.numNodes 1 = .ok K) (hk : readInt env.nodeId 0 = .ok k)
    (hp : ∀ r < W, HasPort (ms r)) (hl : logSetup = "auto" ∨ logSetup = "cpu") :
    ∃ ps, torchrunJob env W loc addr port ms nprocs "cpu" logSetup = .ok ps ∧ ps.length = W ∧ (∀ p ∈ ps, p.rank = 0 ∧ p.worldSize = W) ∧
      ¬ Group ps := by
  have hcomp : ∀ r, computes (ms r) "cpu" = .cpu := fun k => by simp [computes]
  have hjob := torchrunJob_eq env (W := W) loc addr port ms nprocs "cpu" logSetup hK hk (by simp) hp hl
    (fun r _ h => by rw [hcomp r] at h; cases h)
  simp only [hcomp] at hjob
  refine ⟨_, hjob, by simp, fun p hp => ?_, fun h => ?_⟩
  · obtain ⟨r, _, rfl⟩ := List.mem_map.mp hp
    exact ⟨rfl, rfl⟩
  · have : 1 ∈ List.range W := List.mem_range.mpr h1
    have hlen : ((List.range W).map fun _ => (⟨0, W, none, .cpu, logOn logSetup .cpu, addr, port⟩ : Proc)).length = W := by simp
    have h2 := h.2.1
    rw [hlen] at h2
    obtain ⟨q, hq, hq'⟩ := List.mem_map.mp (h2.mem_iff.mpr this)
    obtain ⟨r, _, rfl⟩ := List.mem_map.mp hq
    cases hq'

/-! ## A second training in the same process -/

/-- A training in a single process leaves `WORLD_SIZE` in the environment: a later trainer with any number of processes runs in one
process only. -/
theorem C85_counterexample_second_training {env : Env} (hf : Fresh env) (m : Machine) (nprocs : ℕ) (logSetup : String)
    {K k : ℕ} (hK : readInt env.numNodes 1 = .ok K) (hk : readInt env.nodeId 0 = .ok k)
    (hp : HasPort m) (hl : logSetup = "auto" ∨ logSetup = "cpu") {j : Option ℕ} (hj : env.jobId = j.map .int) :
    ∃ ps env' qs env'', script env m 1 "cpu" logSetup = .ok (ps, env') ∧ script env' m nprocs "cpu" logSetup = .ok (qs, env'') ∧
      qs = ps ∧ qs.length = 1 := by
  obtain ⟨port, hport⟩ := (C85_port m).1.mp hp
  have hcomp : computes m "cpu" = .cpu := by simp [computes]
  have hs := script_eq hf m 1 "cpu" logSetup hK hk (by simp) hport hl hj (by rw [hcomp]; simp)
  rw [hcomp, if_neg (by omega)] at hs
  simp only [onNode, show ¬ 1 < 1 by omega, if_false, List.range_one, List.map_cons, List.map_nil] at hs
  refine ⟨_, _, [procAt env m .cpu logSetup j 1 k port 0], envAfter env (procAt env m .cpu logSetup j 1 k port 0), hs, ?_, rfl, rfl⟩
  unfold script accelerator
  rw [detect_eq (envAfter env (procAt env m .cpu logSetup j 1 k port 0)) m "cpu" logSetup hK hk (by simp) hport, ok_bind]
  simp only [envAfter, hf.elastic, worldSize, procAt, readInt, Text.toInt, ok_bind, pure_eq, hcomp]
  unfold spawn
  rw [if_neg (by simp)]
  simp only [setupProcess, localRank, rank, worldSize, readInt, Text.toInt, ok_bind, masterAddr, masterPort, pure_eq,
    setDevice_cpu m ⟨if false = true then Kind.torchrun else Kind.default, .cpu, logSetup, env.jobId, K, k,
      if m.gpus = 0 then 1 else m.gpus, port⟩ none rfl hl]

/-- After a training on the CPU, `LOCAL_RANK` is the text `None`, and a training on the GPU fails. -/
theorem C85_counterexample_cpu_then_gpu {env : Env} (hf : Fresh env) (m : Machine) (hg : 0 < m.gpus) (logSetup : String)
    {K k : ℕ} (hK : readInt env.numNodes 1 = .ok K) (hk : readInt env.nodeId 0 = .ok k)
    (hp : HasPort m) (hl : logSetup = "auto" ∨ logSetup = "cpu") {j : Option ℕ} (hj : env.jobId = j.map .int) :
    ∃ ps env', script env m 1 "cpu" logSetup = .ok (ps, env') ∧ script env' m 1 "gpu" logSetup = .error .valueError := by
  obtain ⟨port, hport⟩ := (C85_port m).1.mp hp
  have hcomp : computes m "cpu" = .cpu := by simp [computes]
  have hcomp' : computes m "gpu" = .gpu := by simp [computes]
  have hs := script_eq hf m 1 "cpu" logSetup hK hk (by simp) hport hl hj (by rw [hcomp]; simp)
  rw [hcomp, if_neg (by omega)] at hs
  refine ⟨_, _, hs, ?_⟩
  unfold script accelerator
  rw [detect_eq (envAfter env (procAt env m .cpu logSetup j 1 k port 0)) m "gpu" logSetup hK hk (fun _ => hg) hport, ok_bind]
  simp only [envAfter, hf.elastic, worldSize, procAt, readInt, Text.toInt, ok_bind, pure_eq, hcomp']
  unfold spawn
  rw [if_neg (by simp)]
  simp only [setupProcess, localRank, textOf, readInt, Text.toInt, Except.map, error_bind]

/-! ## Data -/

/-- The indices of the list `order` which the sampler gives to process `r` of `R`. -/
def part (order : List ℕ) (R r : ℕ) : List ℕ :=
  (List.range ((order.length + R - 1) / R)).map fun j => order.getD ((r + j * R) % order.length) 0

theorem shard_eq (order : List ℕ) {R r : ℕ} (h : r < R) : shard order R r = .ok (part order R r) := by
  unfold shard
  rw [if_neg (by omega)]
  rfl

/-- A rank outside of the group is refused, every other one gets its part. -/
theorem C85_rank_range (order : List ℕ) (R r : ℕ) :
    (R ≤ r → shard order R r = .error .valueError) ∧ (r < R → ∃ is, shard order R r = .ok is) :=
  ⟨fun h => by rw [shard, if_pos h], fun h => ⟨_, shard_eq order h⟩⟩

theorem getD_lt (order : List ℕ) {i : ℕ} (h : i < order.length) : order.getD i 0 = order[i] := by simp [h]

theorem part_cover (order : List ℕ) {R : ℕ} (hR : 0 < R) {x : ℕ} (hx : x ∈ order) : ∃ r < R, x ∈ part order R r := by
  obtain ⟨i, hi, rfl⟩ := List.mem_iff_getElem.mp hx
  refine ⟨i % R, Nat.mod_lt _ hR, List.mem_map.mpr ⟨i / R, List.mem_range.mpr ?_, ?_⟩⟩
  · rw [Nat.div_lt_iff_lt_mul hR]
    have h1 := Nat.div_add_mod (order.length + R - 1) R
    have h2 := Nat.mod_lt (order.length + R - 1) hR
    rw [Nat.mul_comm] at h1
    omega
  · rw [show i % R + i / R * R = i from by rw [Nat.mul_comm]; exact Nat.mod_add_div i R, Nat.mod_eq_of_lt hi,
      getD_lt order hi]

theorem part_subset (order : List ℕ) {R r x : ℕ} (hR : 0 < R) (hx : x ∈ part order R r) : x ∈ order := by
  obtain ⟨j, hj, rfl⟩ := List.mem_map.mp hx
  have hj := List.mem_range.mp hj
  have h0 : 0 < order.length := by
    rcases Nat.eq_zero_or_pos order.length with h | h
    · rw [h, Nat.zero_add, Nat.div_eq_of_lt (by omega)] at hj
      omega
    · exact h
  rw [getD_lt order (Nat.mod_lt _ h0)]
  exact List.getElem_mem _

theorem indices_perm (R q : ℕ) : (((List.range R).map fun r => (List.range q).map fun j => r + j * R).flatten).Perm (List.range (q * R)) := by
  rw [List.perm_ext_iff_of_nodup _ List.nodup_range]
  · intro a
    simp only [List.mem_flatten, List.mem_map, List.mem_range]
    constructor
    · rintro ⟨l, ⟨r, hr, rfl⟩, ha⟩
      obtain ⟨j, hj, rfl⟩ := List.mem_map.mp ha
      have hj := List.mem_range.mp hj
      calc r + j * R < R + j * R := by omega
        _ = (j + 1) * R := by ring
        _ ≤ q * R := Nat.mul_le_mul_right _ hj
    · intro ha
      have hR : 0 < R := Nat.pos_of_ne_zero fun h => by subst h; simp at ha
      refine ⟨_, ⟨a % R, Nat.mod_lt _ hR, rfl⟩, List.mem_map.mpr ⟨a / R, List.mem_range.mpr ?_, ?_⟩⟩
      · rwa [Nat.div_lt_iff_lt_mul hR]
      · rw [Nat.mul_comm]
        exact Nat.mod_add_div a R
  · rw [List.nodup_flatten]
    refine ⟨fun l hl => ?_, ?_⟩
    · obtain ⟨r, hr, rfl⟩ := List.mem_map.mp hl
      have hr := List.mem_range.mp hr
      refine List.Nodup.map (fun a b h => ?_) List.nodup_range
      exact Nat.eq_of_mul_eq_mul_right (by omega : 0 < R) (by simpa using h)
    · rw [List.pairwise_map]
      refine List.Pairwise.imp_of_mem (fun {r r'} hr hr' hne => ?_) List.nodup_range
      have hr := List.mem_range.mp hr
      have hr' := List.mem_range.mp hr'
      intro a ha ha'
      obtain ⟨j, _, rfl⟩ := List.mem_map.mp ha
      obtain ⟨j', _, h⟩ := List.mem_map.mp ha'
      have := congrArg (· % R) h
      simp only [Nat.add_mul_mod_self_right, Nat.mod_eq_of_lt hr, Nat.mod_eq_of_lt hr'] at this
      exact hne this.symm

theorem getD_range (order : List ℕ) : (List.range order.length).map (fun i => order.getD i 0) = order := by
  refine List.ext_getElem (by simp) fun i h1 h2 => ?_
  simp [h2]

theorem parts_perm (order : List ℕ) {R : ℕ} (hR : 0 < R) (hd : R ∣ order.length) :
    (((List.range R).map (part order R)).flatten).Perm order := by
  obtain ⟨q, hq⟩ := hd
  have hlen : (order.length + R - 1) / R = q := by
    rw [hq, Nat.add_sub_assoc (by omega), Nat.mul_add_div hR, Nat.div_eq_of_lt (by omega), Nat.add_zero]
  have h := (indices_perm R q).map fun i => order.getD i 0
  rw [Nat.mul_comm q R, ← hq, getD_range, List.map_flatten, List.map_map] at h
  refine .trans (.of_eq (congrArg _ (List.map_congr_left fun r hr => ?_))) h
  have hr := List.mem_range.mp hr
  simp only [part, hlen, Function.comp, List.map_map]
  refine List.map_congr_left fun j hj => ?_
  have hj := List.mem_range.mp hj
  have : r + j * R < order.length := by
    rw [hq]
    calc r + j * R < R + j * R := by omega
      _ = R * (j + 1) := by ring
      _ ≤ R * q := Nat.mul_le_mul_left _ hj
  simp only [Function.comp, Nat.mod_eq_of_lt this]

/-- The parts handed to the processes are as documented: equally long, only indices of the dataset, all of them, and each exactly once
if the number of processes divides the size of the dataset. -/
def _root_.Qadence.Spec.Distributed.Split (order : List ℕ) (parts : List (List ℕ)) : Prop :=
  (∀ s ∈ parts, ∀ t ∈ parts, s.length = t.length) ∧ (∀ s ∈ parts, ∀ x ∈ s, x ∈ order) ∧ (∀ x ∈ order, ∃ s ∈ parts, x ∈ s) ∧
    (parts.length ∣ order.length → parts.flatten.Perm order)

/-- On one node the dataset is split among the processes. -/
theorem C85_data_single_node {env : Env} (hf : Fresh env) (m : Machine) (nprocs : ℕ) (h1 : 1 < nprocs) (computeSetup logSetup : String)
    (hK : readInt env.numNodes 1 = .ok 1) {k : ℕ} (hk : readInt env.nodeId 0 = .ok k) (hg : computeSetup = "gpu" → 0 < m.gpus)
    (hp : HasPort m) (hl : logSetup = "auto" ∨ logSetup = "cpu") {j : Option ℕ} (hj : env.jobId = j.map .int)
    (hn : computes m computeSetup = .gpu → nprocs ≤ m.gpus) (order : List ℕ) :
    ∃ ps env' parts, script env m nprocs computeSetup logSetup = .ok (ps, env') ∧
      (ps.mapM fun p => prepareLoader p false order) = .ok (parts.map .indices) ∧ parts.length = nprocs ∧ Split order parts := by
  obtain ⟨port, hport⟩ := (C85_port m).1.mp hp
  have hon : onNode nprocs 1 = nprocs := by
    unfold onNode
    rw [if_pos h1]
    simp
  have hs := script_eq hf m nprocs computeSetup logSetup hK hk hg hport hl hj (by rwa [hon])
  rw [hon] at hs
  refine ⟨_, _, (List.range nprocs).map (part order nprocs), hs, ?_, by simp, ?_, ?_, ?_, ?_⟩
  · rw [List.mapM_map, List.map_map]
    refine mapM_ok_map fun p hp' => ?_
    have hp' := List.mem_range.mp hp'
    unfold prepareLoader
    rw [Function.comp_apply, procAt_world, if_pos h1, if_neg (by simp)]
    have : (procAt env m (computes m computeSetup) logSetup j nprocs k port p).localRank.getD
        (procAt env m (computes m computeSetup) logSetup j nprocs k port p).rank = p := by
      cases computes m computeSetup <;> rfl
    rw [this, shard_eq order hp']
    rfl
  · intro s hs t ht
    obtain ⟨r, _, rfl⟩ := List.mem_map.mp hs
    obtain ⟨r', _, rfl⟩ := List.mem_map.mp ht
    simp [part]
  · intro s hs x hx
    obtain ⟨r, _, rfl⟩ := List.mem_map.mp hs
    exact part_subset order (by omega) hx
  · intro x hx
    obtain ⟨r, hr, hx⟩ := part_cover order (R := nprocs) (by omega) hx
    exact ⟨_, List.mem_map.mpr ⟨r, List.mem_range.mpr hr, rfl⟩, hx⟩
  · intro hd
    exact parts_perm order (by omega) (by simpa using hd)

/-- On several nodes with GPUs the sampler gets the local rank: all nodes train on the same samples and some samples are never used. -/
theorem C85_counterexample_data_nodes {env : Env} (hf : Fresh env) {K g : ℕ} (hK : 1 < K) (hg0 : 0 < g) (ms : ℕ → Machine)
    (hgp : ∀ k < K, (ms k).gpus = g) (computeSetup logSetup : String) (hc : computeSetup = "gpu" ∨ computeSetup = "auto")
    (hp : ∀ k < K, HasPort (ms k)) (hl : logSetup = "auto" ∨ logSetup = "cpu") {j : ℕ} (hj : env.jobId = some (.int j))
    {head : Text} (hh : ∀ k < K, env.nodeList.bind (ms k).scontrol = some head) {order : List ℕ} (ho : order.Nodup)
    (hlen : order.length = K * g) :
    ∃ ps, slurmJob env K ms (K * g) computeSetup logSetup = .ok ps ∧ Group ps ∧
      (∀ p ∈ ps, prepareLoader p false order = .ok (.indices [order.getD (p.rank % g) 0])) ∧
      ∃ x ∈ order, ∀ p ∈ ps, ∀ is, prepareLoader p false order = .ok (.indices is) → x ∉ is := by
  obtain ⟨ps, hps, hl', hG, hloc, _⟩ := C85_multi_node hf (by omega) hg0 ms hgp computeSetup logSetup hc hp hl hj hh
  have hKg : 1 < K * g := by nlinarith
  have hgl : g < K * g := by nlinarith
  have hprep : ∀ p ∈ ps, prepareLoader p false order = .ok (.indices [order.getD (p.rank % g) 0]) := by
    intro p hp
    have hw := hG.2.2.1 p hp
    have hm : p.rank % g < g := Nat.mod_lt _ hg0
    unfold prepareLoader
    rw [hw, hl', if_pos hKg, if_neg (by simp), (hloc p hp).1, Option.getD_some, shard_eq order (by omega)]
    have : (order.length + K * g - 1) / (K * g) = 1 := by
      rw [hlen, Nat.add_sub_assoc (by omega), Nat.add_div_left _ (by omega), Nat.div_eq_of_lt (by omega)]
    simp only [part, this, List.range_one, List.map_cons, List.map_nil, Nat.zero_mul, Nat.add_zero]
    rw [hlen, Nat.mod_eq_of_lt (by omega : p.rank % g < K * g)]
    rfl
  refine ⟨ps, hps, hG, hprep, order[g], List.getElem_mem _, fun p hp is his => ?_⟩
  rw [hprep p hp] at his
  cases his
  have hm : p.rank % g < g := Nat.mod_lt _ hg0
  rw [List.mem_singleton, getD_lt order (by omega : p.rank % g < order.length)]
  intro h
  have := (List.Nodup.getElem_inj_iff ho).mp h
  omega

/-- Every process of a group iterates over a whole infinite dataset, and a single process keeps its loader. -/
theorem C85_data_other (p : Proc) (order : List ℕ) :
    (1 < p.worldSize → prepareLoader p true order = .ok .whole) ∧
      (p.worldSize ≤ 1 → ∀ infinite, prepareLoader p infinite order = .ok .own) := by
  refine ⟨fun h => by simp [prepareLoader, h], fun h i => ?_⟩
  unfold prepareLoader
  rw [if_neg (by omega)]

/-- All models of a group are synchronised, on GPUs with the device of the process; a model of a single process is left as it is. -/
theorem C85_model {env : Env} (m : Machine) {e : Execution} {nprocs q : ℕ} {p : Proc} {env' : Env}
    (h : setupProcess env m e nprocs q = .ok (p, env')) :
    prepareModel p = if 1 < p.worldSize then
      (match p.device with
      | .cpu => .ddp none
      | .cuda d => .ddp (some d)) else .plain := by
  unfold setupProcess at h
  obtain ⟨l, hl, h⟩ := bind_ok h
  obtain ⟨w, _, h⟩ := bind_ok h
  obtain ⟨r, _, h⟩ := bind_ok h
  obtain ⟨d, hd, h⟩ := bind_ok h
  obtain ⟨po, _, h⟩ := bind_ok h
  have h := pure_ok h
  injection h with h _
  subst h
  unfold prepareModel
  dsimp only
  by_cases hw : 1 < w
  · rw [if_pos hw, if_pos hw]
    unfold setDevice at hd
    unfold localRank at hl
    cases hc : e.compute with
    | cpu =>
      rw [hc] at hd hl
      injection hl with hl
      subst hl
      have : d.1 = .cpu := by
        simp only [pure_eq, ok_bind] at hd
        split at hd
        · injection hd with hd; rw [← hd]
        · split at hd
          · injection hd with hd; rw [← hd]
          · cases hd
      rw [this]
      rfl
    | gpu =>
      rw [hc] at hd hl
      dsimp only at hl
      cases hr : readInt env.localRank q with
      | error e => rw [hr] at hl; cases hl
      | ok n =>
        rw [hr] at hl
        injection hl with hl
        subst hl
        have : d.1 = .cuda n := by
          dsimp only at hd
          by_cases hn : n < m.gpus
          · rw [if_pos hn] at hd
            simp only [pure_eq, ok_bind] at hd
            split at hd
            · injection hd with hd; rw [← hd]
            · split at hd
              · injection hd with hd; rw [← hd]
              · cases hd
          · rw [if_neg hn] at hd; cases hd
        rw [this]
  · rw [if_neg hw, if_neg hw]

open Data in
/-- Batches which are tensors, lists or dictionaries are moved to the device. -/
theorem C85_batch {τ : Type} (move : τ → τ) (v : Value τ) (h : (∃ t, v = .tensor t) ∨ (∃ l, v = .list l) ∨ ∃ l, v = .dict l) :
    prepareBatch move v = toDevice move v := by
  rcases h with ⟨t, rfl⟩ | ⟨l, rfl⟩ | ⟨l, rfl⟩ <;> rfl

open Data in
/-- Other batches are lost without an error, among them those which `data_to_device` could move. -/
theorem C85_counterexample_batch {τ : Type} (move : τ → τ) (ts : List τ) :
    prepareBatch move (.other : Value τ) = .ok .none ∧ toDevice move (.other : Value τ) = .error .valueError ∧
      prepareBatch move (.tensorDS ts) = .ok .none ∧ toDevice move (.tensorDS ts) = .ok (.tensorDS (ts.map move)) :=
  ⟨rfl, rfl, rfl, by simp [toDevice]⟩

/-! ## Reductions -/

theorem foldl_max (vs : List ℚ) : ∀ v : ℚ, (v ≤ vs.foldl max v ∧ ∀ x ∈ vs, x ≤ vs.foldl max v) ∧ (vs.foldl max v = v ∨ vs.foldl max v ∈ vs) := by
  induction vs with
  | nil => simp
  | cons a vs ih =>
    intro v
    obtain ⟨⟨h1, h2⟩, h3⟩ := ih (max v a)
    rw [List.foldl_cons]
    refine ⟨⟨le_trans (le_max_left _ _) h1, fun x hx => ?_⟩, ?_⟩
    · rcases List.mem_cons.mp hx with rfl | hx
      · exact le_trans (le_max_right _ _) h1
      · exact h2 x hx
    · rcases h3 with h3 | h3
      · rcases max_choice v a with h | h
        · left; rw [h3, h]
        · right; rw [h3, h]; exact List.mem_cons_self
      · right; exact List.mem_cons_of_mem _ h3

/-- The reduction of one number per process: maximum, sum, and for every other name the mean. -/
theorem C85_reduce (vs : List ℚ) (h : vs ≠ []) :
    (∀ x ∈ vs, x ≤ reduce "max" vs) ∧ reduce "max" vs ∈ vs ∧ reduce "sum" vs = vs.sum ∧
      ∀ op, op ≠ "max" → op ≠ "sum" → reduce op vs * vs.length = vs.sum := by
  cases vs with
  | nil => exact absurd rfl h
  | cons v vs =>
    obtain ⟨⟨h1, h2⟩, h3⟩ := foldl_max vs v
    refine ⟨fun x hx => ?_, ?_, by simp [reduce], fun op ho ho' => ?_⟩
    · rcases List.mem_cons.mp hx with rfl | hx
      · exact h1
      · exact h2 x hx
    · exact List.mem_cons.mpr h3
    · unfold reduce
      rw [if_neg ho, if_neg ho']
      have : ((v :: vs).length : ℚ) ≠ 0 := by simp only [List.length_cons]; positivity
      field_simp

/-- The dictionary with the given keys and values. -/
def dictOf (ks : List String) (v : String → ℚ) : PyDict String ℚ := ks.map fun k => (k, v k)

theorem allReduce_eq (op : String) (ks : List String) (vs : List (String → ℚ)) :
    allReduce true op (vs.map (dictOf ks)) = some (vs.map fun _ => dictOf ks fun k => reduce op (vs.map fun v => v k)) := by
  unfold allReduce
  rw [if_neg (by simp), if_pos]
  · congr 1
    rw [List.map_map]
    refine List.map_congr_left fun v _ => ?_
    refine List.ext_getElem (by simp [dictOf]) fun i h1 h2 => ?_
    have hi : i < ks.length := by simpa [dictOf] using h2
    simp only [dictOf, Function.comp, List.getElem_mapIdx, List.getElem_map, List.map_map]
    congr 2
    refine List.map_congr_left fun v' _ => ?_
    have : (dictOf ks v').map Prod.snd = ks.map v' := by simp [dictOf, Function.comp_def]
    change ((dictOf ks v').map Prod.snd).getD i 0 = _
    rw [this]
    simp [hi]
  · rw [List.all_eq_true]
    intro d hd
    obtain ⟨v, hv, rfl⟩ := List.mem_map.mp hd
    cases vs with
    | nil => simp at hv
    | cons w vs => simp [dictOf]

/-- If all processes have the same keys in the same order, each gets for each key the reduction of all values; without a process group
the values stay as they are. -/
theorem C85_all_reduce (op : String) (ks : List String) (vs : List (String → ℚ)) :
    allReduce true op (vs.map (dictOf ks)) = some (vs.map fun _ => dictOf ks fun k => reduce op (vs.map fun v => v k)) ∧
      ∀ ds, allReduce false op ds = some ds :=
  ⟨allReduce_eq op ks vs, fun ds => by simp [allReduce]⟩

/-- Values are matched by position: metrics whose keys come in different orders are mixed up. -/
theorem C85_counterexample_order (a b c d : ℚ) :
    allReduce true "sum" [[("a", a), ("b", b)], [("b", c), ("a", d)]] = some [[("a", a + c), ("b", b + d)], [("b", a + c), ("a", b + d)]] := by
  simp [allReduce, reduce]

/-- All processes stop together, as soon as one of them wants to. -/
theorem C85_stop (flags : List Bool) (h : flags ≠ []) :
    stopTraining true flags = some (flags.map fun _ => flags.any id) := by
  unfold stopTraining
  have he : (flags.map fun b => [("indicator", if b then (1 : ℚ) else 0)]) =
      (flags.map fun b => fun _ : String => if b then (1 : ℚ) else 0).map (dictOf ["indicator"]) := by
    rw [List.map_map]
    rfl
  rw [he, allReduce_eq, Option.map_some, List.map_map, List.map_map]
  congr 1
  refine List.map_congr_left fun _ _ => ?_
  simp only [Function.comp, dictOf, List.map_cons, List.map_nil, PyDict.get?, if_true, Option.getD_some, List.map_map]
  have hc : (flags.map ((fun v : String → ℚ => v "indicator") ∘ fun b => fun _ : String => if b then (1 : ℚ) else 0)) =
      flags.map fun b => if b then (1 : ℚ) else 0 := rfl
  obtain ⟨h1, h2, _, _⟩ := C85_reduce (flags.map fun b => if b then (1 : ℚ) else 0) (by simpa using h)
  simp only [hc]
  by_cases hb : true ∈ flags
  · have : (1 : ℚ) ≤ reduce "max" (flags.map fun b => if b then (1 : ℚ) else 0) := h1 1 (List.mem_map.mpr ⟨true, hb, rfl⟩)
    rw [decide_eq_true (by linarith)]
    exact (List.any_eq_true.mpr ⟨true, hb, rfl⟩).symm
  · obtain ⟨b, hb', he⟩ := List.mem_map.mp h2
    have hbf : b = false := by
      cases b
      · rfl
      · exact absurd hb' hb
    subst hbf
    rw [decide_eq_false (by rw [← he]; simp)]
    symm
    rw [List.any_eq_false]
    intro x hx
    cases x
    · simp
    · exact absurd hx hb

theorem get?_dictOf (ks : List String) (v : String → ℚ) (k : String) (h : k ∈ ks) : PyDict.get? (dictOf ks v) k = some (v k) := by
  induction ks with
  | nil => simp at h
  | cons k' ks ih =>
    rw [dictOf, List.map_cons, PyDict.get?]
    by_cases hk : k' = k
    · rw [if_pos hk, hk]
    · rw [if_neg hk]
      exact ih (by rcases List.mem_cons.mp h with rfl | h; exact absurd rfl hk; exact h)

theorem merge_loss (l : ℚ) : ∀ (ks : List String) (acc : List String) (v : String → ℚ), (acc ++ ks).Nodup → "loss" ∉ acc ++ ks →
    PyDict.merge (("loss", l) :: dictOf acc v) (dictOf ks v) = ("loss", l) :: dictOf (acc ++ ks) v
  | [], acc, v, _, _ => by simp [PyDict.merge, dictOf]
  | k :: ks, acc, v, hn, hl => by
    have hset : PyDict.set (("loss", l) :: dictOf acc v) k (v k) = ("loss", l) :: dictOf (acc ++ [k]) v := by
      rw [PyDict.set, if_neg (by rintro rfl; exact hl (by simp))]
      congr 1
      have hk : k ∉ acc := fun h => by
        have := (List.nodup_append.mp hn).2.2 k h k List.mem_cons_self
        exact this rfl
      clear hn hl
      induction acc with
      | nil => rfl
      | cons a acc ih =>
        rw [dictOf, List.map_cons, PyDict.set, if_neg (by rintro rfl; exact hk List.mem_cons_self)]
        exact congrArg _ (ih fun h => hk (List.mem_cons_of_mem _ h))
    have ih := merge_loss l ks (acc ++ [k]) v (by simpa using hn) (by simpa using hl)
    rw [List.append_assoc, List.singleton_append] at ih
    rw [← ih]
    unfold PyDict.merge
    change List.foldl _ (PyDict.set (("loss", l) :: dictOf acc v) k (v k)) (dictOf ks v) = _
    rw [hset]

/-- Aggregated results: each process gets the mean loss and the mean of each metric, if all have the same metrics and none is called
`loss`. -/
theorem C85_aggregate (ks : List String) (hk : ks.Nodup) (hl : "loss" ∉ ks) (rs : List (ℚ × (String → ℚ))) :
    aggregate true true (rs.map fun r => (r.1, dictOf ks r.2)) =
      some (rs.map fun _ => (some ((rs.map (·.1)).sum / rs.length), dictOf ks fun k => (rs.map fun r => r.2 k).sum / rs.length)) := by
  unfold aggregate
  rw [if_pos rfl, List.map_map]
  have he : (rs.map ((fun r : ℚ × PyDict String ℚ => PyDict.merge [("loss", r.1)] r.2) ∘ fun r => (r.1, dictOf ks r.2))) =
      (rs.map fun r => fun k => if k = "loss" then r.1 else r.2 k).map (dictOf ("loss" :: ks)) := by
    rw [List.map_map]
    refine List.map_congr_left fun r _ => ?_
    have := merge_loss r.1 ks [] r.2 (by simpa using hk) (by simpa using hl)
    simp only [Function.comp]
    rw [show ([("loss", r.1)] : PyDict String ℚ) = ("loss", r.1) :: dictOf [] r.2 from rfl, this, List.nil_append]
    simp only [dictOf, List.map_cons, if_true]
    congr 1
    refine List.map_congr_left fun k hk' => ?_
    rw [if_neg (by rintro rfl; exact hl hk')]
  rw [he, allReduce_eq, Option.map_some, List.map_map, List.map_map]
  congr 1
  refine List.map_congr_left fun _ _ => ?_
  simp only [Function.comp_apply]
  rw [get?_dictOf _ _ _ List.mem_cons_self]
  refine Prod.ext ?_ ?_
  · simp [reduce, Function.comp_def]
  · dsimp only
    rw [dictOf, List.map_cons, List.filter_cons_of_neg (by simp), List.filter_eq_self.mpr]
    · refine List.map_congr_left fun k hk' => ?_
      have : k ≠ "loss" := by rintro rfl; exact hl hk'
      simp [reduce, Function.comp_def, this]
    · intro kv hkv
      obtain ⟨k, hk', rfl⟩ := List.mem_map.mp hkv
      have : k ≠ "loss" := by rintro rfl; exact hl hk'
      simpa using this

/-- A metric called `loss` replaces the loss. -/
theorem C85_counterexample_loss_metric (l x : ℚ) :
    aggregate false true [(l, [("loss", x)])] = some [(some x, [])] := by
  simp [aggregate, allReduce, PyDict.merge, PyDict.set, PyDict.get?]

/-! ## Examples -/

/-- An environment without launcher. -/
def exEnv : Env := ⟨false, none, none, none, none, none, none, none, none, none⟩

/-- A machine with two GPUs. -/
def exMachine : Machine := ⟨2, fun _ => none, fun i => 2000 + i, fun p => p != 2000⟩

theorem exFresh : Fresh exEnv := ⟨rfl, rfl, rfl, rfl, rfl, rfl⟩

example : ∃ env', script exEnv exMachine 2 "auto" "cpu" = .ok
    ([⟨0, 2, some 0, .cuda 0, .cpu, .other "localhost", .int 2001⟩,
      ⟨1, 2, some 1, .cuda 1, .cpu, .other "localhost", .int 2001⟩], env') := ⟨_, rfl⟩

example : HasPort exMachine := ⟨1, by decide, by decide⟩

example : shard [4, 2, 0, 3, 1] 2 0 = .ok [4, 0, 1] ∧ shard [4, 2, 0, 3, 1] 2 1 = .ok [2, 3, 4] ∧
    shard [4, 2, 0, 3, 1] 2 2 = .error .valueError := by decide

end Qadence.Distributed
